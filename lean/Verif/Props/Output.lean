import Verif.Model.Output
import Verif.Spec.Output
import Verif.Props.Pipeline

/-!
# C101-C104: texts that pipelines write, and the publisher of test messages
-/

namespace Sawatabi.Props

open Stream NppStream Pipeline Text
open Utils (decimal IsDecimal readAsNumber)

/-! ## Reading back -/

/-- Two texts with a part of certain characters followed by another character can only be cut in one way. -/
theorem cut_inj {P : Char → Prop} {a b c d : List Char} {x y : Char} (ha : ∀ k ∈ a, P k) (hb : ∀ k ∈ b, P k) (hx : ¬ P x)
    (hy : ¬ P y) (h : a ++ x :: c = b ++ y :: d) : a = b ∧ x = y ∧ c = d := by
  induction a generalizing b with
  | nil =>
    cases b with
    | nil => simpa using h
    | cons k b =>
      simp only [List.nil_append, List.cons_append, List.cons.injEq] at h
      exact absurd (h.1 ▸ hb k (by simp)) hx
  | cons k a ih =>
    cases b with
    | nil =>
      simp only [List.nil_append, List.cons_append, List.cons.injEq] at h
      exact absurd (h.1 ▸ ha k (by simp)) hy
    | cons l b =>
      simp only [List.cons_append, List.cons.injEq] at h
      obtain ⟨e1, e2⟩ := ih (fun k hk => ha k (by simp [hk])) (fun k hk => hb k (by simp [hk])) h.2
      exact ⟨by rw [h.1, e1], e2⟩

/-- The characters of numbers. -/
def NumChar (c : Char) : Prop := c = '-' ∨ c ∈ ['0', '1', '2', '3', '4', '5', '6', '7', '8', '9']

instance (c : Char) : Decidable (NumChar c) := by unfold NumChar; infer_instance

theorem _root_.Sawatabi.Text.Numeral.chars {s : List Char} {q : ℚ} (h : Numeral s q) : ∀ c ∈ s, NumChar c := by
  rcases h with ⟨h, -⟩ | ⟨d, rfl, h, -⟩
  · exact fun c hc => .inr (h.2 c hc)
  · intro c hc
    rcases List.mem_cons.mp hc with rfl | hc
    · exact .inl rfl
    · exact .inr (h.2 c hc)

theorem _root_.Sawatabi.Text.Numeral.ne {s : List Char} {q : ℚ} (h : Numeral s q) : s ≠ [] := by
  rcases h with ⟨h, -⟩ | ⟨d, rfl, h, -⟩
  · exact h.1
  · simp

theorem _root_.Sawatabi.Text.Numeral.unique {s : List Char} {q q' : ℚ} (h : Numeral s q) (h' : Numeral s q') : q = q' := by
  have hno : ∀ d, ¬ IsDecimal ('-' :: d) := fun d h => absurd (h.2 '-' (by simp)) (by decide)
  rcases h with ⟨h, rfl⟩ | ⟨d, rfl, h, rfl⟩
  · rcases h' with ⟨h', rfl⟩ | ⟨d, rfl, h', rfl⟩
    · rfl
    · exact absurd h (hno d)
  · rcases h' with ⟨h', rfl⟩ | ⟨d', e, h', rfl⟩
    · exact absurd h' (hno d)
    · simp only [List.cons.injEq, true_and] at e
      rw [e]

theorem _root_.Sawatabi.Text.Numeral.cut {a b t t' : List Char} {q q' : ℚ} {x : Char} (ha : Numeral a q) (hb : Numeral b q') (hx : ¬ NumChar x)
    (h : a ++ x :: t = b ++ x :: t') : q = q' ∧ t = t' := by
  obtain ⟨h1, _, h2⟩ := cut_inj ha.chars hb.chars hx hx h
  exact ⟨ha.unique (h1 ▸ hb), h2⟩

theorem _root_.Sawatabi.Text.Bracketed.unique {s s' t t' : List Char} {l l' : List ℚ} (h : Bracketed s l) (h' : Bracketed s' l') (e : s ++ t = s' ++ t') :
    l = l' ∧ t = t' := by
  obtain ⟨ps, h, rfl⟩ := h
  obtain ⟨ps', h', rfl⟩ := h'
  simp only [List.append_assoc, List.cons_append, List.nil_append, List.cons.injEq, true_and] at e
  have hb : ¬ NumChar ']' := by decide
  have hc : ¬ NumChar ',' := by decide
  induction h generalizing l' ps' with
  | nil =>
    match h' with
    | .nil => exact ⟨rfl, by simpa using e⟩
    | .cons (l₁ := []) hq .nil =>
      have := cut_inj (P := NumChar) (a := []) (by simp) hq.chars hb hb (by simpa using e)
      exact absurd this.1.symm hq.ne
    | .cons hq (.cons _ _) =>
      have := cut_inj (P := NumChar) (a := []) (by simp) hq.chars hb hc (by simpa [List.intercalate] using e)
      exact absurd this.1.symm hq.ne
  | @cons p q ps l hp h ih =>
    cases h with
    | nil =>
      match h' with
      | .nil =>
        have := cut_inj (P := NumChar) (b := []) hp.chars (by simp) hb hb (by simpa using e)
        exact absurd this.1 hp.ne
      | .cons hq .nil =>
        obtain ⟨h1, h2⟩ := hp.cut hq hb (by simpa using e)
        exact ⟨by rw [h1], h2⟩
      | .cons hq (.cons _ _) =>
        have := (cut_inj (P := NumChar) hp.chars hq.chars hb hc (by simpa [List.intercalate] using e)).2.1
        exact absurd this (by decide)
    | cons hr h =>
      match h' with
      | .nil =>
        have := cut_inj (P := NumChar) (b := []) hp.chars (by simp) hc hb (by simpa [List.intercalate] using e)
        exact absurd this.1 hp.ne
      | .cons hq .nil =>
        have := (cut_inj (P := NumChar) hp.chars hq.chars hc hb (by simpa [List.intercalate] using e)).2.1
        exact absurd this (by decide)
      | .cons hq (.cons hq' h') =>
        obtain ⟨h1, h2⟩ := hp.cut hq hc (by simpa [List.intercalate] using e)
        simp only [List.cons.injEq, true_and] at h2
        obtain ⟨h3, h4⟩ := ih _ (.cons hq' h') (by simpa [List.intercalate] using h2)
        exact ⟨by rw [h1, h3], h4⟩

/-- **C103** A text is the report of at most one answer. -/
theorem C103_readable {t : List Char} {r r' : Report} (h : Sheet t r) (h' : Sheet t r') : r = r' := by
  obtain ⟨i, n, p, ps, m, ms, d, h1, -, h2, h3, h4, h5, h6, e⟩ := h
  obtain ⟨i', n', p', ps', m', ms', d', h1', -, h2', h3', h4', h5', h6', e'⟩ := h'
  rw [e] at e'
  have e1 : ", elements=".toList = ',' :: " elements=".toList := by decide
  simp only [List.cons.injEq, List.append_cancel_left_eq, List.append_assoc, true_and, and_true, e1, List.cons_append] at e'
  obtain ⟨ei, -, ep, em, ed⟩ := e'
  obtain ⟨ep, eps⟩ := h2.cut h2' (by decide) ep
  obtain ⟨em, ems⟩ := h4.cut h4' (by decide) em
  rw [List.append_cancel_left_eq] at eps ems
  have ei := (h1.unique (t := []) (t' := []) h1' (by rw [ei])).1
  have eps := (h3.unique (t := []) (t' := []) h3' (by rw [eps])).1
  have ems := (h5.unique (t := []) (t' := []) h5' (by rw [ems])).1
  have ed := h6.unique (ed ▸ h6')
  cases r; cases r'; simp_all

/-! ## Writing -/

theorem digit_mem {c : Char} (h : c.isDigit = true) : c ∈ ['0', '1', '2', '3', '4', '5', '6', '7', '8', '9'] := by
  refine isDigit_iff.mp ?_
  simp only [Char.isDigit, Bool.and_eq_true, decide_eq_true_eq] at h
  simp only [Utils.isDigit, Bool.and_eq_true, decide_eq_true_eq]
  exact ⟨h.1, h.2⟩

theorem toDigits_decimal (n : Nat) : IsDecimal (Nat.toDigits 10 n) ∧ decimal (Nat.toDigits 10 n) = n := by
  refine ⟨⟨Nat.toDigits_ne_nil, fun c hc => digit_mem (Nat.isDigit_of_mem_toDigits (by decide) (by decide) hc)⟩, ?_⟩
  have h := foldl_decimal (Nat.toDigits 10 n) 0
  rw [Nat.zero_mul, Nat.zero_add] at h
  rw [← h]
  have := Nat.ofDigitChars_ten_toDigits (n := n)
  rw [Nat.ofDigitChars_eq_foldl] at this
  exact this

theorem strInt_numeral (n : ℤ) : Numeral (strInt n) n := by
  cases n with
  | ofNat n => exact .inl ⟨(toDigits_decimal n).1, by rw [strInt, (toDigits_decimal n).2]; simp⟩
  | negSucc n =>
    refine .inr ⟨_, rfl, (toDigits_decimal (n + 1)).1, ?_⟩
    rw [(toDigits_decimal (n + 1)).2, Int.cast_negSucc]

/-- A whole number. -/
def Whole (q : ℚ) : Prop := ∃ n : ℤ, q = n

theorem str_numeral {q : ℚ} (h : Whole q) : Numeral (str q) q := by
  obtain ⟨n, rfl⟩ := h
  exact strInt_numeral n

theorem join_eq (sep : List Char) (l : List (List Char)) : join sep l = List.intercalate sep l := by
  induction l with
  | nil => rfl
  | cons a l ih =>
    cases l with
    | nil => simp [join]
    | cons b l => rw [join, ih]; simp [List.intercalate]

theorem strList_bracketed {l : List ℚ} (h : ∀ q ∈ l, Whole q) : Bracketed (strList l) l := by
  refine ⟨l.map str, ?_, ?_⟩
  · rw [List.forall₂_map_left_iff, List.forall₂_same]
    exact fun q hq => str_numeral (h q hq)
  · rw [strList, join_eq]
    rfl

/-- A report of whole numbers. -/
structure WholeReport (r : Report) : Prop where
  input : ∀ q ∈ r.input, Whole q
  setP : ∀ q ∈ r.setP, Whole q
  setN : ∀ q ∈ r.setN, Whole q
  sumP : Whole r.sumP
  sumN : Whole r.sumN
  diff : Whole r.diff

theorem _root_.Sawatabi.Text.Bracketed.no_newline {s : List Char} {l : List ℚ} (h : Bracketed s l) : '\n' ∉ s := by
  obtain ⟨ps, h, rfl⟩ := h
  have : '\n' ∉ List.intercalate [',', ' '] ps := by
    rw [← join_eq]
    induction h with
    | nil => simp [join]
    | @cons p q ps l hp h ih =>
      have h1 : '\n' ∉ p := fun hc => absurd (hp.chars _ hc) (by decide)
      cases h with
      | nil => simpa [join] using h1
      | cons _ _ => simp_all [join]
  simp [this]

theorem _root_.Sawatabi.Text.Numeral.no_newline {s : List Char} {q : ℚ} (h : Numeral s q) : '\n' ∉ s := fun hc => absurd (h.chars _ hc) (by decide)

/-- **C103** The text of a report of whole numbers has the lines of the report. -/
theorem C103_written {r : Report} (h : WholeReport r) : Sheet (reportText r) r := by
  have hi := strList_bracketed h.input
  have hp := strList_bracketed h.setP
  have hn := strList_bracketed h.setN
  have hl := strInt_numeral r.input.length
  have h1 := str_numeral h.sumP
  have h2 := str_numeral h.sumN
  have h3 := str_numeral h.diff
  refine ⟨_, _, _, _, _, _, _, hi, by simpa using hl, h1, hp, h2, hn, h3, ?_⟩
  unfold reportText
  rw [join_eq, List.splitOn_intercalate]
  · rfl
  · intro l hm
    simp only [reportLines, List.mem_cons, List.not_mem_nil, or_false] at hm
    rcases hm with rfl | rfl | rfl | rfl | rfl | rfl | rfl | rfl <;>
      try simp only [List.mem_append, not_or, hi.no_newline, hp.no_newline, hn.no_newline, hl.no_newline, h1.no_newline, h2.no_newline,
        h3.no_newline, not_false_eq_true, and_true, true_and]
    all_goals decide
  · simp [reportLines]

/-! ## C101: the output part -/

/-- The text that an option gives: nothing if the option is missing. -/
def Gives (options : List (String × Opt)) (key : String) (t : List Char) : Prop :=
  dget options key = some (.str t) ∨ (dget options key = none ∧ t = [])

theorem Gives.unique {o : List (String × Opt)} {k : String} {t t' : List Char} (h : Gives o k t) (h' : Gives o k t') : t = t' := by
  rcases h with h | ⟨h, rfl⟩ <;> rcases h' with h' | ⟨h', rfl⟩ <;> rw [h] at h' <;> simp_all

/-- The part with the time. -/
def Stamped (options : List (String × Opt)) (time t : List Char) : Prop :=
  (dget options "output.with_timestamp" ≠ none ∧ t = ['['] ++ time ++ [']', ' ']) ∨
  (dget options "output.with_timestamp" = none ∧ t = [])

theorem outputPart_eq (o : List (String × Opt)) (time data t : List Char) :
    outputPart o time data = .ok t ↔
      ∃ p s k, Gives o "output.prefix" p ∧ Gives o "output.suffix" s ∧ Stamped o time k ∧ t = p ++ k ++ data ++ s := by
  unfold outputPart Gives Stamped
  generalize dget o "output.prefix" = vp
  generalize dget o "output.suffix" = vs
  generalize dget o "output.with_timestamp" = vt
  have e : chars "[" ++ time ++ chars "] " ++ data = ['['] ++ time ++ [']', ' '] ++ data := rfl
  rw [e]
  rcases vp with _ | (_ | _ | _ | _) <;> rcases vs with _ | (_ | _ | _ | _) <;> rcases vt with _ | _ <;>
    simp [Opt.text, bind, Except.bind, pure, Except.pure, eq_comm]

/-- **C101** A text comes out exactly if the prefix and the suffix are strings or missing: the prefix, the time in brackets, the
answer and the suffix. -/
theorem C101_exact_partial (o : List (String × Opt)) (time data t : List Char) :
    outputPart o time data = .ok t ↔
      ∃ p s k, Gives o "output.prefix" p ∧ Gives o "output.suffix" s ∧ Stamped o time k ∧ t = p ++ k ++ data ++ s :=
  outputPart_eq o time data t

/-- **C101** Otherwise every text of the pipeline fails. -/
theorem C101_fails (o : List (String × Opt)) (time data : List Char) :
    (∃ t, outputPart o time data = .ok t) ∨ outputPart o time data = .error .typeError := by
  unfold outputPart
  generalize dget o "output.prefix" = vp
  generalize dget o "output.suffix" = vs
  rcases vp with _ | (_ | _ | _ | _) <;> rcases vs with _ | (_ | _ | _ | _) <;>
    simp [Opt.text, Except.bind_ok, bind, Except.bind, pure, Except.pure]

/-- The kind of an answer without a result. -/
def stage {β : Type} : Output β → Option Nat
  | .outdated => some 0
  | .failedMap _ => some 1
  | .failedSolve _ => some 2
  | .failedUnmap _ => some 3
  | .result _ => none

theorem message_letter {β : Type} (y : Style β) (ts : ℚ) {a : Output β} {i : Nat} (h : stage a = some i) :
    (i, (message y ts a)[10]?) ∈ [(0, some 'e'), (1, some 'm'), (2, some 's'), (3, some 'u')] := by
  have key : ∀ (u v : List Char) (c : Char), u[10]? = some c → (u ++ v)[10]? = some c := by
    intro u v c hc
    obtain ⟨hlt, -⟩ := List.getElem?_eq_some_iff.mp hc
    rw [List.getElem?_append_left hlt, hc]
  have letters : ∃ c, (message y ts a)[10]? = some c ∧ (i, c) ∈ [(0, 'e'), (1, 'm'), (2, 's'), (3, 'u')] := by
    cases a with
    | outdated =>
      obtain rfl := Option.some.inj h
      exact ⟨'e', key _ _ _ (key _ _ _ (key _ _ _ (key _ _ _ (by decide +kernel)))), by decide⟩
    | failedMap =>
      obtain rfl := Option.some.inj h
      exact ⟨'m', key _ _ _ (by decide +kernel), by decide⟩
    | failedSolve =>
      obtain rfl := Option.some.inj h
      exact ⟨'s', key _ _ _ (by decide +kernel), by decide⟩
    | failedUnmap =>
      obtain rfl := Option.some.inj h
      exact ⟨'u', key _ _ _ (by decide +kernel), by decide⟩
    | result => cases h
  obtain ⟨c, hc, hm⟩ := letters
  rw [hc]
  simpa using hm

/-- **C101** The answers to windows without a result say what failed: texts about different stages differ, whatever the times and
the errors. -/
theorem C101_stages {β : Type} (y : Style β) (ts ts' : ℚ) {a b : Output β} {i j : Nat} (hi : stage a = some i) (hj : stage b = some j)
    (h : message y ts a = message y ts' b) : i = j := by
  have h1 := message_letter y ts hi
  have h2 := message_letter y ts' hj
  rw [h] at h1
  simp only [List.mem_cons, Prod.mk.injEq, List.not_mem_nil, or_false] at h1 h2
  rcases h1 with ⟨rfl, e1⟩ | ⟨rfl, e1⟩ | ⟨rfl, e1⟩ | ⟨rfl, e1⟩ <;> rcases h2 with ⟨rfl, e2⟩ | ⟨rfl, e2⟩ | ⟨rfl, e2⟩ | ⟨rfl, e2⟩ <;>
    first | rfl | (rw [e1] at e2; exact absurd e2 (by decide))

/-- Errors of mapping and unmapping. -/
example : stage (Output.failedMap .valueError : Output Nat) = some 1 ∧ stage (Output.failedUnmap .valueError : Output Nat) = some 3 :=
  ⟨rfl, rfl⟩

/-- **C101** Nothing is lost: answers can be told apart from the texts written for them, and times too if they are written. -/
theorem C101_lossless {o : List (String × Opt)} {time time' data data' t : List Char} (h1 : ']' ∉ time) (h2 : ']' ∉ time')
    (h : outputPart o time data = .ok t) (h' : outputPart o time' data' = .ok t) :
    data = data' ∧ (dget o "output.with_timestamp" ≠ none → time = time') := by
  obtain ⟨p, s, k, hp, hs, hk, rfl⟩ := (outputPart_eq ..).mp h
  obtain ⟨p', s', k', hp', hs', hk', e⟩ := (outputPart_eq ..).mp h'
  obtain rfl := hp.unique hp'
  obtain rfl := hs.unique hs'
  rw [List.append_cancel_right_eq, List.append_assoc, List.append_assoc, List.append_cancel_left_eq] at e
  rcases hk with ⟨hk, rfl⟩ | ⟨hk, rfl⟩
  · rcases hk' with ⟨-, rfl⟩ | ⟨hk', -⟩
    · simp only [List.append_assoc, List.cons_append, List.nil_append, List.cons.injEq, true_and] at e
      obtain ⟨a, -, b⟩ := cut_inj (P := fun c => c ≠ ']') (fun c hc e => h1 (e ▸ hc)) (fun c hc e => h2 (e ▸ hc)) (by simp) (by simp) e
      simp only [List.cons.injEq, true_and] at b
      exact ⟨b, fun _ => a⟩
    · exact absurd hk' hk
  · rcases hk' with ⟨hk', -⟩ | ⟨-, rfl⟩
    · exact absurd hk hk'
    · exact ⟨by simpa using e, fun h => absurd hk h⟩

/-- Options are tested by their presence: a time is also written if the option is `False` or `None`. -/
theorem C101_off_refuted : outputPart [("output.with_timestamp", .bool false)] ['1'] ['x'] = .ok ['[', '1', ']', ' ', 'x'] ∧
    outputPart [("output.with_timestamp", .none)] ['1'] ['x'] = .ok ['[', '1', ']', ' ', 'x'] := by decide +kernel

/-- A missing prefix cannot be said with `None`: every window then fails. -/
theorem C101_none_refuted (time data : List Char) : outputPart [("output.prefix", .none)] time data = .error .typeError := rfl

example : outputPart [("output.with_timestamp", .bool true), ("output.suffix", .str ['!']), ("output.prefix", .str ['>'])] ['9'] ['x']
    = .ok ['>', '[', '9', ']', ' ', 'x', '!'] := by decide +kernel

/-! ## C102: outdated windows -/

section
variable {M S δ β : Type} [DecidableEq δ] [LinearOrder δ] {alg : Algorithm M δ} {f : Fns M S δ β} {initial : M} {st : St M S δ}

/-- **C102** A window older than the last one is answered by the message with its own time in both places. -/
theorem C102_text_partial (y : Style β) {t : ℚ} {w : Win δ} (ht : st.ts = some t) (hw : w.ts < t) (shared : Bool) :
    ∃ o, (process alg f initial shared w).run st = .ok o st ∧
      o.map (message y w.ts) = [outdatedText (y.time w.ts) (y.time w.ts)] :=
  ⟨_, C65_stale ht hw shared, rfl⟩

/-- The message never says the time of the window before, whatever the windows are. -/
theorem C102_refuted (y : Style β) (hy : Function.Injective y.time) {t : ℚ} {w : Win δ} (ht : st.ts = some t) (hw : w.ts < t)
    (shared : Bool) : ∃ o, (process alg f initial shared w).run st = .ok o st ∧
      o.map (message y w.ts) ≠ [outdatedText (y.time w.ts) (y.time t)] := by
  refine ⟨_, C65_stale ht hw shared, fun e => ?_⟩
  have e : outdatedText (y.time w.ts) (y.time w.ts) = outdatedText (y.time w.ts) (y.time t) := (List.cons.inj e).1
  unfold outdatedText at e
  simp only [List.append_assoc] at e
  rw [List.append_cancel_left_eq, List.append_cancel_left_eq, List.append_cancel_left_eq, List.append_cancel_right_eq] at e
  exact absurd (hy e) hw.ne

end

/-- Times as numerals: the message for time 3 after time 5. -/
def Ex.style : Style Report := ⟨str, fun _ => [], reportText⟩

example : ∃ o, (process (.window : Algorithm (List Nat) Nat) Ex.fns [] false ⟨3, [⟨3, 0, 7⟩]⟩).run { St.start with ts := some 5 } =
    .ok o { St.start with ts := some 5 } ∧ o.map (message ⟨str, fun _ => [], fun _ => []⟩ 3) = [outdatedText ['3'] ['3']] := by
  obtain ⟨o, h1, h2⟩ := C102_text_partial (alg := .window) (f := Ex.fns) (initial := []) (st := { St.start with ts := some 5 })
    ⟨str, fun _ => [], fun _ => []⟩ (t := 5) (w := ⟨3, [⟨3, 0, 7⟩]⟩) rfl (by decide) false
  exact ⟨o, h1, h2.trans (by decide +kernel)⟩

/-! ## C103: from input text to output text -/

theorem Whole.sum {l : List ℚ} (h : ∀ q ∈ l, Whole q) : Whole l.sum := by
  induction l with
  | nil => exact ⟨0, by simp⟩
  | cons a l ih =>
    obtain ⟨n, hn⟩ := h a (by simp)
    obtain ⟨m, hm⟩ := ih fun q hq => h q (by simp [hq])
    exact ⟨n + m, by rw [List.sum_cons, hn, hm]; push_cast; rfl⟩

theorem whole_zipWith {ns : List ℚ} {signs : List ℤ} (h : ∀ q ∈ ns, Whole q) :
    ∀ q ∈ List.zipWith (fun (n : ℚ) (s : ℤ) => n * (s : ℚ)) ns signs, Whole q := by
  induction ns generalizing signs with
  | nil => simp
  | cons a ns ih =>
    cases signs with
    | nil => simp
    | cons s signs =>
      intro q hq
      rcases List.mem_cons.mp hq with rfl | hq
      · obtain ⟨n, hn⟩ := h a (by simp)
        exact ⟨n * s, by rw [hn]; push_cast; rfl⟩
      · exact ih (fun q hq => h q (by simp [hq])) q hq

theorem whole_part {ns : List ℚ} {signs : List ℤ} {s : ℤ} (h : ∀ q ∈ ns, Whole q) : ∀ q ∈ part s ns signs, Whole q := by
  intro q hq
  unfold part at hq
  obtain ⟨x, hx, rfl⟩ := List.mem_map.mp hq
  exact h _ (List.of_mem_zip (List.mem_filter.mp hx).1).1

theorem Answer.whole {W : List (El ℚ)} {r : Report} (h : Answer W r) (hW : ∀ e ∈ W, Whole e.data) : WholeReport r := by
  have hi : ∀ q ∈ r.input, Whole q := by
    intro q hq
    rw [h.input] at hq
    obtain ⟨e, he, rfl⟩ := List.mem_map.mp hq
    exact hW e he
  obtain ⟨signs, -, hp, hn, hd⟩ := h.split
  have hP : ∀ q ∈ r.setP, Whole q := hp ▸ whole_part hi
  have hN : ∀ q ∈ r.setN, Whole q := hn ▸ whole_part hi
  refine ⟨hi, hP, hN, h.sums.1 ▸ Whole.sum hP, h.sums.2 ▸ Whole.sum hN, ?_⟩
  obtain ⟨n, hn⟩ := Whole.sum (whole_zipWith (signs := signs) hi)
  refine ⟨|n|, ?_⟩
  rw [hd, difference, hn, Int.cast_abs]

theorem timed_whole {lines : List (List Char)} : ∀ e ∈ timed (textNumbers lines), Whole e.data := by
  intro e he
  unfold timed textNumbers at he
  obtain ⟨x, hx, rfl⟩ := List.mem_map.mp he
  have := List.fst_mem_of_mem_zipIdx hx
  obtain ⟨s, -, hs⟩ := List.mem_map.mp this
  exact ⟨decimal s, by simp [← hs]⟩

variable {now : ℚ} {render : El ℚ → String} {env : Env} {clks : Nat → Nat → ℚ} {ids : Nat → String} {id : String} {wi : Windowing}

/-- What is written for a window with at least two numbers and no zeros among them: one text, that begins and ends as the options
say, and whoever reads the report in it learns a best partition of the numbers of the window. -/
def Tells (y : Style Report) (options : List (String × Opt)) (ts : ℚ) (W : List (El ℚ)) (o : List (Output Report)) : Prop :=
  TwoNonzero W ∧ (∀ e ∈ W, e.data ≠ 0) → ∀ p s, Gives options "output.prefix" p → Gives options "output.suffix" s →
    ∃ k t, Stamped options (y.time ts) k ∧ written y options ts o = .ok [p ++ k ++ t ++ s] ∧
      (∃ r, Sheet t r) ∧ ∀ r, Sheet t r → Answer W r

theorem tells {y : Style Report} (hy : y.result = reportText) {options : List (String × Opt)} {ts : ℚ} {W : List (El ℚ)}
    (hW : ∀ e ∈ W, Whole e.data) {o : List (Output Report)} (h : Yields W o) : Tells y options ts W o := by
  intro hW' p s hp hs
  obtain ⟨r, rfl, hr⟩ := h.1 hW'
  have hk : ∃ k, Stamped options (y.time ts) k := by
    by_cases hk : dget options "output.with_timestamp" = none
    · exact ⟨_, .inr ⟨hk, rfl⟩⟩
    · exact ⟨_, .inl ⟨hk, rfl⟩⟩
  obtain ⟨k, hk⟩ := hk
  have hsheet := C103_written (hr.whole hW)
  refine ⟨k, reportText r, hk, ?_, ⟨r, hsheet⟩, fun r' hr' => by rw [← C103_readable hsheet hr']; exact hr⟩
  have hm : message y ts (.result r) = reportText r := congrFun hy r
  have := (outputPart_eq options (y.time ts) (reportText r) (p ++ k ++ reportText r ++ s)).mpr ⟨p, s, k, hp, hs, hk, rfl⟩
  simp only [written, List.mapM_cons, List.mapM_nil, hm, this, Except.bind_ok, Except.pure_ok]

/-- **C103** for the window and the delta algorithm: from lines of text to lines of text. -/
theorem C103_window {alg : Algorithm LModel ℚ} (halg : alg = .window ∨ alg = .delta) (hv : wi.Valid) {lines : List (List Char)}
    (hl : ∀ s ∈ lines, s.getLast? ≠ some '\n') {y : Style Report} (hy : y.result = reportText) (options : List (String × Opt)) :
    ∃ els, numbersOf lines = .ok els ∧ els = timed (textNumbers lines) ∧ ∀ ds, Delivers (windows wi els) ds →
      ∃ os st', (processAll alg (fns now render env clks ids exactSolver) (LModel.new .ising id) ds).run St.start = .ok os st' ∧
        List.Forall₂ (fun w o => Tells y options w.ts w.elements o) (windows wi els) os := by
  obtain ⟨els, h1, h2, h3⟩ := C96_window (now := now) (render := render) (env := env) (clks := clks) (ids := ids) (id := id) halg hv hl
  refine ⟨els, h1, h2, fun ds hd => ?_⟩
  obtain ⟨os, st', h4, h5⟩ := h3 ds hd
  refine ⟨os, st', h4, ?_⟩
  rw [List.forall₂_iff_get] at h5 ⊢
  refine ⟨h5.1, fun i a b => tells hy ?_ (h5.2 i a b)⟩
  intro e he
  obtain ⟨k, hk, -⟩ := ((C96_windows hv els).2 _).mp (List.get_mem (windows wi els) ⟨i, a⟩)
  rw [hk] at he
  exact timed_whole e (h2 ▸ List.mem_of_mem_filter he)

/-- **C103** for the incremental algorithm: the text for a window is about all numbers so far. -/
theorem C103_incremental {size : ℚ} (hs : 0 < size) {lines : List (List Char)} (hl : ∀ s ∈ lines, s.getLast? ≠ some '\n')
    {y : Style Report} (hy : y.result = reportText) (options : List (String × Opt)) :
    ∃ els, numbersOf lines = .ok els ∧ els = timed (textNumbers lines) ∧ ∀ ds, Delivers (windows (.fixed size) els) ds →
      ∃ os st', (processAll .incremental (fns now render env clks ids exactSolver) (LModel.new .ising id) ds).run St.start = .ok os st' ∧
        List.Forall₂ (fun w o => Tells y options w.ts (els.filter fun e => decide (e.ts < w.ts + tick)) o)
          (windows (.fixed size) els) os := by
  obtain ⟨els, h1, h2, h3⟩ := C96_incremental (now := now) (render := render) (env := env) (clks := clks) (ids := ids) (id := id) hs hl
  refine ⟨els, h1, h2, fun ds hd => ?_⟩
  obtain ⟨os, st', h4, h5⟩ := h3 ds hd
  refine ⟨os, st', h4, h5.imp fun w o h => tells hy (fun e he => ?_) h⟩
  exact timed_whole e (h2 ▸ List.mem_of_mem_filter he)

/-! ## C104: the publisher -/

theorem publish_eq {e : Nat} (msg : Nat → List Char) (n i : Nat) (hi : i ≤ e) :
    publish e msg n i = if n ≤ e - i then ((List.range' i n).map msg, false) else ((List.range' i (e + 1 - i)).map msg, true) := by
  induction n generalizing i with
  | zero => simp [publish]
  | succ n ih =>
    rw [publish]
    by_cases h : i = e
    · subst h
      simp
    · rw [if_neg (by exact_mod_cast h), ih (i + 1) (by omega)]
      by_cases hn : n ≤ e - (i + 1)
      · rw [if_pos hn, if_pos (by omega), List.range'_succ]
        simp
      · rw [if_neg hn, if_neg (by omega), show e + 1 - i = (e + 1 - (i + 1)) + 1 by omega, List.range'_succ]
        simp

/-- **C104** With an end of at least 1 the publisher sends a message for each of 1 to the end, and then stops. -/
theorem C104_stops {e : Nat} (he : 1 ≤ e) (msg : Nat → List Char) (n : Nat) :
    publish e msg n 1 = if n < e then ((List.range' 1 n).map msg, false) else ((List.range' 1 e).map msg, true) := by
  rw [publish_eq msg n 1 he]
  by_cases h : n < e
  · rw [if_pos h, if_pos (by omega)]
  · rw [if_neg h, if_neg (by omega), Nat.add_sub_cancel]

/-- **C104** With any other end it never stops. -/
theorem C104_endless {e : ℤ} (he : e < 1) (msg : Nat → List Char) (n : Nat) :
    publish e msg n 1 = ((List.range' 1 n).map msg, false) := by
  have : ∀ i : Nat, 1 ≤ i → publish e msg n i = ((List.range' i n).map msg, false) := by
    induction n with
    | zero => simp [publish]
    | succ n ih =>
      intro i hi
      rw [publish, if_neg (by omega), ih (i + 1) (by omega), List.range'_succ]
      rfl
  exact this 1 (le_refl _)

/-- **C104** The input part reads the numbers sent by the publisher as 1, 2, 3 and so on. -/
theorem C104_numbers (n : Nat) : readAsNumber ((List.range' 1 n).map numberMessage) = .ok (List.range' 1 n) := by
  have hd : ∀ i : Nat, IsDecimal (numberMessage i) ∧ decimal (numberMessage i) = i := toDigits_decimal
  rw [C75_numbers_partial]
  · congr 1
    rw [List.filter_eq_self.mpr]
    · rw [List.map_map]
      conv_rhs => rw [← List.map_id (List.range' 1 n)]
      exact List.map_congr_left fun i _ => (hd i).2
    · intro s hs
      obtain ⟨i, -, rfl⟩ := List.mem_map.mp hs
      exact decide_eq_true (hd i).1
  · intro s hs e
    obtain ⟨i, -, rfl⟩ := List.mem_map.mp hs
    exact absurd ((hd i).1.2 _ (List.mem_of_getLast? e)) (by decide)

example : publish 3 numberMessage 10 1 = ([['1'], ['2'], ['3']], true) := by decide +kernel

end Sawatabi.Props
