import Verif.Model.ConstraintText
import Verif.Lemmas.Equality
import Verif.Props.Output
import Verif.Props.Examples

/-!
# C124: the text of a constraint tells which constraint it is
-/

namespace Sawatabi.Text

/-! ## Reading from the left -/

/-- Up to a character that does not occur. -/
theorem until_inj {x : Char} {l l' a b : List Char} (h : x ∉ l) (h' : x ∉ l') (e : l ++ x :: a = l' ++ x :: b) : l = l' ∧ a = b := by
  induction l generalizing l' with
  | nil =>
    cases l' with
    | nil => simpa using e
    | cons c l' =>
      rw [List.nil_append, List.cons_append, List.cons.injEq] at e
      exact absurd (by simp [e.1]) h'
  | cons c l ih =>
    cases l' with
    | nil =>
      rw [List.nil_append, List.cons_append, List.cons.injEq] at e
      exact absurd (by simp [e.1]) h
    | cons c' l' =>
      rw [List.cons_append, List.cons_append, List.cons.injEq] at e
      obtain ⟨h1, h2⟩ := ih (l' := l') (fun hx => h (by simp [hx])) (fun hx => h' (by simp [hx])) e.2
      exact ⟨by rw [e.1, h1], h2⟩

theorem hex_length (w n : Nat) : (hex w n).length = w := by
  induction w generalizing n with
  | zero => rfl
  | succ w ih => simp [hex, ih]

theorem digitChar_inj {a b : Nat} (ha : a < 16) (hb : b < 16) (h : Nat.digitChar a = Nat.digitChar b) : a = b := by
  have : ∀ a < 16, ∀ b < 16, Nat.digitChar a = Nat.digitChar b → a = b := by decide
  exact this a ha b hb h

theorem hex_inj {w n n' : Nat} (hn : n < 16 ^ w) (hn' : n' < 16 ^ w) (h : hex w n = hex w n') : n = n' := by
  induction w generalizing n n' with
  | zero => simp at hn hn'; omega
  | succ w ih =>
    simp only [hex] at h
    obtain ⟨h1, h2⟩ := List.append_inj h (by simp [hex_length])
    have e1 := ih (n := n / 16) (n' := n' / 16) (by rw [pow_succ] at hn; omega) (by rw [pow_succ] at hn'; omega) h1
    have e2 := digitChar_inj (a := n % 16) (b := n' % 16) (Nat.mod_lt _ (by decide)) (Nat.mod_lt _ (by decide)) (by simpa using h2)
    omega

theorem hex_read {w n n' : Nat} {a b : List Char} (hn : n < 16 ^ w) (hn' : n' < 16 ^ w) (h : hex w n ++ a = hex w n' ++ b) :
    n = n' ∧ a = b := by
  obtain ⟨h1, h2⟩ := List.append_inj h (by simp [hex_length])
  exact ⟨hex_inj hn hn' h1, h2⟩

/-- How a character is written: as itself, after a backslash, by a letter, or by a number. -/
inductive Form (q c : Char) : List Char → Prop where
  | plain (h : c ≠ '\\') (h' : c ≠ q) : Form q c [c]
  | same (h : c = q ∨ c = '\\') : Form q c ['\\', c]
  | tab (h : c = '\t') : Form q c ['\\', 't']
  | newline (h : c = '\n') : Form q c ['\\', 'n']
  | ret (h : c = '\r') : Form q c ['\\', 'r']
  | num (k : Char) (w : Nat) (hk : (k, w) ∈ [('x', 2), ('u', 4), ('U', 8)]) (h : c.toNat < 16 ^ w) : Form q c (['\\', k] ++ hex w c.toNat)

theorem escaped_form (printable : Char → Bool) (q c : Char) : Form q c (escaped printable q c) := by
  unfold escaped
  split_ifs with h1 h2 h3 h4 h5 h6 h7 h8 h9
  · exact .same h1
  · exact .tab h2
  · exact .newline h3
  · exact .ret h4
  · exact .num 'x' 2 (by simp) (by omega)
  · exact .plain (fun h => h1 (.inr h)) fun h => h1 (.inl h)
  · exact .plain (fun h => h1 (.inr h)) fun h => h1 (.inl h)
  · exact .num 'x' 2 (by simp) (by omega)
  · exact .num 'u' 4 (by simp) (by omega)
  · refine .num 'U' 8 (by simp) ?_
    exact c.val.toNat_lt

theorem escaped_read {printable : Char → Bool} {q c c' : Char} {a b : List Char} (hq : q = '\'' ∨ q = '"')
    (h : escaped printable q c ++ a = escaped printable q c' ++ b) : c = c' ∧ a = b := by
  have f := escaped_form printable q c
  have f' := escaped_form printable q c'
  generalize escaped printable q c = t at f h
  generalize escaped printable q c' = t' at f' h
  have hk : ∀ {k : Char} {w : Nat}, (k, w) ∈ [('x', 2), ('u', 4), ('U', 8)] →
      (k = 'x' ∧ w = 2) ∨ (k = 'u' ∧ w = 4) ∨ (k = 'U' ∧ w = 8) := by intro k w h; simpa using h
  have hnum : ∀ {k : Char} {w : Nat} {x : Char}, (k, w) ∈ [('x', 2), ('u', 4), ('U', 8)] →
      x = k → x ≠ '\'' ∧ x ≠ '"' ∧ x ≠ '\\' ∧ x ≠ 't' ∧ x ≠ 'n' ∧ x ≠ 'r' := by
    intro k w x h hx
    subst hx
    rcases hk h with ⟨rfl, rfl⟩ | ⟨rfl, rfl⟩ | ⟨rfl, rfl⟩ <;> decide
  have hsame : ∀ {x : Char}, x = q ∨ x = '\\' → x = '\'' ∨ x = '"' ∨ x = '\\' := by
    intro x hx; rcases hx with rfl | rfl
    · rcases hq with rfl | rfl <;> simp
    · simp
  cases f with
  | num k w hkw hlt =>
    cases f' with
    | num k' w' hkw' hlt' =>
      simp only [List.cons_append, List.nil_append, List.cons.injEq, true_and] at h
      obtain ⟨rfl, h⟩ := h
      have : w = w' := by
        rcases hk hkw with ⟨rfl, rfl⟩ | ⟨rfl, rfl⟩ | ⟨rfl, rfl⟩ <;> rcases hk hkw' with ⟨e, rfl⟩ | ⟨e, rfl⟩ | ⟨e, rfl⟩ <;>
          first | rfl | exact absurd e (by decide)
      subst this
      obtain ⟨e, h⟩ := hex_read hlt hlt' h
      exact ⟨Char.toNat_inj.mp e, h⟩
    | plain h1 h2 =>
      simp only [List.cons_append, List.nil_append, List.cons.injEq] at h
      exact absurd h.1.symm h1
    | same h1 =>
      simp only [List.cons_append, List.nil_append, List.cons.injEq, true_and] at h
      have := hnum hkw h.1.symm
      rcases hsame h1 with h' | h' | h' <;> simp [h'] at this
    | _ =>
      simp only [List.cons_append, List.nil_append, List.cons.injEq, true_and] at h
      have := hnum hkw h.1.symm
      simp at this
  | plain h1 h2 =>
    cases f' with
    | plain h1' h2' => simpa using h
    | _ =>
      simp only [List.cons_append, List.nil_append, List.cons.injEq] at h
      exact absurd h.1 h1
  | same h1 =>
    cases f' with
    | plain h1' h2' =>
      simp only [List.cons_append, List.nil_append, List.cons.injEq] at h
      exact absurd h.1.symm h1'
    | same h1' => simpa using h
    | num k' w' hkw' hlt' =>
      simp only [List.cons_append, List.nil_append, List.cons.injEq, true_and] at h
      have := hnum hkw' h.1
      rcases hsame h1 with h' | h' | h' <;> simp [h'] at this
    | _ =>
      simp only [List.cons_append, List.nil_append, List.cons.injEq, true_and] at h
      rcases hsame h1 with h' | h' | h' <;> rw [h'] at h <;> exact absurd h.1 (by decide)
  | _ =>
    rename_i h0
    cases f' with
    | plain h1' h2' =>
      simp only [List.cons_append, List.nil_append, List.cons.injEq] at h
      exact absurd h.1.symm h1'
    | same h1' =>
      simp only [List.cons_append, List.nil_append, List.cons.injEq, true_and] at h
      rcases hsame h1' with h' | h' | h' <;> rw [h'] at h <;> exact absurd h.1 (by decide)
    | num k' w' hkw' hlt' =>
      simp only [List.cons_append, List.nil_append, List.cons.injEq, true_and] at h
      have := hnum hkw' h.1
      simp at this
    | _ =>
      rename_i h0'
      simp only [List.cons_append, List.nil_append, List.cons.injEq, true_and] at h
      first
        | exact ⟨h0.trans h0'.symm, h⟩
        | exact absurd h.1 (by decide)

theorem escaped_head {printable : Char → Bool} {q c : Char} (hq : q = '\'' ∨ q = '"') (a b : List Char) :
    escaped printable q c ++ a ≠ q :: b := by
  have f := escaped_form printable q c
  generalize escaped printable q c = t at f
  have : '\\' ≠ q := by rcases hq with rfl | rfl <;> decide
  cases f <;> intro h <;> simp only [List.cons_append, List.nil_append, List.cons.injEq] at h
  · exact absurd h.1 ‹_›
  all_goals exact this h.1

theorem quoteOf_cases (t : List Char) : quoteOf t = '\'' ∨ quoteOf t = '"' := by
  unfold quoteOf; split <;> simp

/-- `repr` of a string can be read back, whatever follows. -/
theorem quoted_read {printable : Char → Bool} {t t' a b : List Char}
    (h : quoted printable t ++ a = quoted printable t' ++ b) : t = t' ∧ a = b := by
  unfold quoted at h
  simp only [List.cons_append, List.nil_append, List.append_assoc, List.cons.injEq] at h
  obtain ⟨hq, h⟩ := h
  rw [← hq] at h
  have hq1 := quoteOf_cases t
  generalize quoteOf t = q at h hq1
  clear hq
  induction t generalizing t' with
  | nil =>
    cases t' with
    | nil => simpa using h
    | cons c' t' =>
      simp only [List.flatMap_nil, List.nil_append, List.flatMap_cons, List.append_assoc] at h
      exact absurd h.symm (escaped_head hq1 _ _)
  | cons c t ih =>
    cases t' with
    | nil =>
      simp only [List.flatMap_nil, List.nil_append, List.flatMap_cons, List.append_assoc] at h
      exact absurd h (escaped_head hq1 _ _)
    | cons c' t' =>
      simp only [List.flatMap_cons, List.append_assoc] at h
      obtain ⟨rfl, h'⟩ := escaped_read hq1 h
      obtain ⟨rfl, rfl⟩ := ih h'
      exact ⟨rfl, rfl⟩

/-! ## Variables and sets of variables -/

theorem varText_read {v v' : PVar} {a b : List Char} (hv : ')' ∉ v.label.toList) (hv' : ')' ∉ v'.label.toList)
    (h : varText v ++ a = varText v' ++ b) : v = v' ∧ a = b := by
  obtain ⟨t, l⟩ := v
  obtain ⟨t', l'⟩ := v'
  cases t <;> cases t' <;> simp only [varText, List.append_assoc] at h
  case spin.binary => exact absurd (List.head_eq_of_cons_eq h) (by decide)
  case binary.spin => exact absurd (List.head_eq_of_cons_eq h) (by decide)
  all_goals
    obtain ⟨e, h'⟩ := until_inj hv hv' (List.append_cancel_left (List.append_cancel_left h))
    exact ⟨by congr 1; exact String.toList_inj.mp e, h'⟩

theorem varsText_read {v v' : PVar} {vs vs' : List PVar} {a b : List Char} (hv : ∀ w ∈ v :: vs, ')' ∉ w.label.toList)
    (hv' : ∀ w ∈ v' :: vs', ')' ∉ w.label.toList)
    (h : join (chars ", ") ((v :: vs).map varText) ++ '}' :: a = join (chars ", ") ((v' :: vs').map varText) ++ '}' :: b) :
    v :: vs = v' :: vs' ∧ a = b := by
  induction vs generalizing v v' vs' with
  | nil =>
    cases vs' with
    | nil =>
      simp only [List.map_cons, List.map_nil, join] at h
      obtain ⟨rfl, h⟩ := varText_read (hv v (by simp)) (hv' v' (by simp)) h
      exact ⟨rfl, by simpa using h⟩
    | cons w' ws' =>
      simp only [List.map_cons, List.map_nil, join, List.append_assoc] at h
      obtain ⟨rfl, h'⟩ := varText_read (hv v (by simp)) (hv' v' (by simp)) h
      exact absurd (List.head_eq_of_cons_eq h') (by decide)
  | cons w ws ih =>
    cases vs' with
    | nil =>
      simp only [List.map_cons, List.map_nil, join, List.append_assoc] at h
      obtain ⟨rfl, h'⟩ := varText_read (hv v (by simp)) (hv' v' (by simp)) h
      exact absurd (List.head_eq_of_cons_eq h') (by decide)
    | cons w' ws' =>
      simp only [List.map_cons, join, List.append_assoc] at h
      obtain ⟨rfl, h'⟩ := varText_read (hv v (by simp)) (hv' v' (by simp)) h
      obtain ⟨e, h''⟩ := ih (v := w) (v' := w') (vs' := ws') (fun x hx => hv x (List.mem_cons_of_mem _ hx))
        (fun x hx => hv' x (List.mem_cons_of_mem _ hx)) (List.append_cancel_left h')
      exact ⟨by rw [e], h''⟩

theorem setText_read {vs vs' : List PVar} {a b : List Char} (hv : ∀ w ∈ vs, ')' ∉ w.label.toList)
    (hv' : ∀ w ∈ vs', ')' ∉ w.label.toList) (h : setText vs ++ a = setText vs' ++ b) : vs = vs' ∧ a = b := by
  cases vs with
  | nil =>
    cases vs' with
    | nil => exact ⟨rfl, List.append_cancel_left h⟩
    | cons v' vs' => exact absurd (List.head_eq_of_cons_eq h) (by decide)
  | cons v vs =>
    cases vs' with
    | nil => exact absurd (List.head_eq_of_cons_eq h) (by decide)
    | cons v' vs' =>
      simp only [setText, List.append_assoc] at h
      exact varsText_read hv hv' (List.append_cancel_left h)

theorem strInt_read {n n' : ℤ} {a b : List Char} (h : strInt n ++ (chars ", " ++ a) = strInt n' ++ (chars ", " ++ b)) :
    n = n' ∧ a = b := by
  have e1 : ∀ l : List Char, chars ", " ++ l = ',' :: ([' '] ++ l) := fun _ => rfl
  rw [e1, e1] at h
  obtain ⟨e, h⟩ := (Props.strInt_numeral n).cut (Props.strInt_numeral n') (by decide) h
  exact ⟨by exact_mod_cast e, List.append_cancel_left h⟩

end Sawatabi.Text

namespace Sawatabi.Props
open Sawatabi.Text

theorem nHot_name : chars "NHotConstraint" = 'N' :: chars "HotConstraint" := by decide

theorem zeroOrOneHot_name : chars "ZeroOrOneHotConstraint" = 'Z' :: chars "eroOrOneHotConstraint" := by decide

theorem equality_name : chars "EqualityConstraint" = 'E' :: chars "qualityConstraint" := by decide

/-- **C124.** If the labels of the variables contain no closing parenthesis, the text of a constraint (`str`) determines the
constraint: its kind, its label (any string, with quotes, backslashes, commas or line ends), its variables, its numbers. `num` is
how Python writes the strength; it is assumed to tell numbers apart. Missing: labels of variables with closing parentheses, for
which the claim is false (`C124_paren_refuted`). -/
theorem C124_readable_partial {printable : Char → Bool} {num : ℚ → List Char} (hnum : Function.Injective num) {c d : Constraint}
    (hc : ∀ vs ∈ c.sets, ∀ v ∈ vs, ')' ∉ v.label.toList) (hd : ∀ vs ∈ d.sets, ∀ v ∈ vs, ')' ∉ v.label.toList)
    (h : constraintText printable num c = constraintText printable num d) : c = d := by
  cases c <;> cases d <;>
    simp only [constraintText, constraintData, variablesData, strengthOf, Constraint.label, dictText, className, List.cons_append,
      List.nil_append, List.map_cons, List.map_nil, join, List.append_assoc] at h <;>
    simp only [Constraint.sets, List.mem_cons, List.not_mem_nil, or_false, forall_eq, forall_eq_or_imp] at hc hd
  case nHot.nHot =>
    simp only [List.append_cancel_left_eq] at h
    obtain ⟨rfl, h⟩ := setText_read hc hd h
    simp only [List.append_cancel_left_eq] at h
    obtain ⟨en, h⟩ := strInt_read h
    obtain rfl := Int.ofNat_inj.mp en
    simp only [List.append_cancel_left_eq] at h
    obtain ⟨e, h⟩ := quoted_read h
    simp only [List.append_cancel_left_eq, List.append_cancel_right_eq] at h
    rw [hnum h, String.toList_inj.mp e]
  case zeroOrOneHot.zeroOrOneHot =>
    simp only [List.append_cancel_left_eq] at h
    obtain ⟨rfl, h⟩ := setText_read hc hd h
    simp only [List.append_cancel_left_eq] at h
    obtain ⟨e, h⟩ := quoted_read h
    simp only [List.append_cancel_left_eq, List.append_cancel_right_eq] at h
    rw [hnum h, String.toList_inj.mp e]
  case equality.equality =>
    simp only [List.append_cancel_left_eq] at h
    obtain ⟨rfl, h⟩ := setText_read hc.1 hd.1 h
    simp only [List.append_cancel_left_eq] at h
    obtain ⟨rfl, h⟩ := setText_read hc.2 hd.2 h
    simp only [List.append_cancel_left_eq] at h
    obtain ⟨e, h⟩ := quoted_read h
    simp only [List.append_cancel_left_eq, List.append_cancel_right_eq] at h
    rw [hnum h, String.toList_inj.mp e]
  all_goals
    simp only [List.append_cancel_left_eq, nHot_name, zeroOrOneHot_name, equality_name, List.cons_append, List.cons.injEq,
      Char.reduceEq, false_and] at h

/-- The same for `repr`. -/
theorem C124_repr_partial {printable : Char → Bool} {num : ℚ → List Char} (hnum : Function.Injective num) {c d : Constraint}
    (hc : ∀ vs ∈ c.sets, ∀ v ∈ vs, ')' ∉ v.label.toList) (hd : ∀ vs ∈ d.sets, ∀ v ∈ vs, ')' ∉ v.label.toList)
    (h : constraintRepr printable num c = constraintRepr printable num d) : c = d := by
  refine C124_readable_partial (printable := printable) hnum hc hd ?_
  unfold constraintRepr at h
  cases c <;> cases d <;> simp only [className, List.append_assoc] at h
  case nHot.nHot => simpa only [List.append_cancel_left_eq, List.append_cancel_right_eq] using h
  case zeroOrOneHot.zeroOrOneHot => simpa only [List.append_cancel_left_eq, List.append_cancel_right_eq] using h
  case equality.equality => simpa only [List.append_cancel_left_eq, List.append_cancel_right_eq] using h
  all_goals
    simp only [nHot_name, zeroOrOneHot_name, equality_name, List.cons_append, List.cons.injEq, Char.reduceEq, false_and] at h

/-- Constraints with the same text are equal (`==` true, `!=` false). -/
theorem C124_equal_partial {printable : Char → Bool} {num : ℚ → List Char} (hnum : Function.Injective num) {c d : Constraint}
    (hc : ∀ vs ∈ c.sets, ∀ v ∈ vs, ')' ∉ v.label.toList) (hd : ∀ vs ∈ d.sets, ∀ v ∈ vs, ')' ∉ v.label.toList)
    (h : constraintText printable num c = constraintText printable num d) : c.eq d = true ∧ c.ne d = false := by
  obtain rfl := C124_readable_partial hnum hc hd h
  have : c.eq c = true := by cases c <;> simp [Constraint.eq, setEq]
  exact ⟨this, by simp [Constraint.ne, this]⟩

/-- `!=` says that the kinds, labels, strengths, numbers or sets of variables differ. -/
theorem C124_ne {c d : Constraint} (hc : c.SetVars) (hd : d.SetVars) : c.ne d = true ↔ ¬ c.Alike d := by
  rw [← Constraint.eq_iff hc hd, Constraint.ne]
  simp

/-- A variable whose label contains a closing parenthesis can look like two: two constraints that are not equal have the same
text. -/
theorem C124_paren_refuted (printable : Char → Bool) (num : ℚ → List Char) :
    ∃ c d : Constraint, constraintText printable num c = constraintText printable num d ∧ c.ne d = true := by
  refine ⟨.zeroOrOneHot "k" 1 [⟨.spin, "a), Spin(b"⟩], .zeroOrOneHot "k" 1 [⟨.spin, "a"⟩, ⟨.spin, "b"⟩], ?_, by decide⟩
  unfold constraintText constraintData
  congr 3

/-- Constraints that are equal can have different texts: the variables are written in the order in which the set is iterated. -/
theorem C124_order_refuted (printable : Char → Bool) {num : ℚ → List Char} (hnum : Function.Injective num) :
    ∃ c d : Constraint, c.SetVars ∧ d.SetVars ∧ c.eq d = true ∧ c.ne d = false ∧
      constraintText printable num c ≠ constraintText printable num d := by
  refine ⟨.zeroOrOneHot "k" 1 [Ex.x0, Ex.x1], .zeroOrOneHot "k" 1 [Ex.x1, Ex.x0], by simp [Constraint.SetVars, Ex.x0, Ex.x1],
    by simp [Constraint.SetVars, Ex.x0, Ex.x1], by decide, by decide, fun h => ?_⟩
  have := C124_readable_partial hnum (by decide) (by decide) h
  exact absurd this (by decide)

/-- Non-trivial case: labels with quotes, a line end, a character that is not printable and a comma; the hypotheses hold and the
texts differ. -/
example : constraintText (fun _ => true) (fun q => strInt q.num ++ ['/'] ++ strInt q.den)
      (.nHot "it's \n \"n\": 1, \x7f" (3 / 2) [Ex.x0, Ex.x1] 1) ≠
    constraintText (fun _ => true) (fun q => strInt q.num ++ ['/'] ++ strInt q.den)
      (.nHot "it's \\n \"n\": 1, \x7f" (3 / 2) [Ex.x0, Ex.x1] 1) := by
  have hnum : Function.Injective fun q : ℚ => strInt q.num ++ ['/'] ++ strInt q.den := by
    intro q r h
    simp only [List.append_assoc, List.cons_append, List.nil_append] at h
    obtain ⟨h1, h2⟩ := (strInt_numeral q.num).cut (strInt_numeral r.num) (by decide) h
    have h3 := (strInt_numeral q.den).unique (h2 ▸ strInt_numeral r.den)
    exact Rat.ext (by exact_mod_cast h1) (by exact_mod_cast h3)
  intro h
  exact absurd (C124_readable_partial hnum (by decide) (by decide) h) (by decide)

/-- The text itself. -/
example : constraintText (fun _ => true) (fun _ => chars "1.0") (.nHot "one's" 1 [⟨.spin, "x[0]"⟩, ⟨.binary, "y"⟩] 1) =
    chars "{'constraint_class': 'NHotConstraint', 'variables': {Spin(x[0]), Binary(y)}, 'n': 1, 'label': \"one's\", 'strength': 1.0}" := by
  decide +kernel

end Sawatabi.Props
