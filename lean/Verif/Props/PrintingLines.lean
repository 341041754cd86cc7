import Verif.Props.Printing

/-!
# C105: the lines of a printed model

All lines of the printed models, in order, written out without the helpers of the code.
-/

namespace Sawatabi.Props

open Text

variable {m : LModel} {y : Printer}

/-- The lines of a text. -/
def linesOf (t : List Char) : List (List Char) := t.splitOn '\n'

/-- The lines of a text with an edge and four spaces before each. -/
def boxed (t : List Char) : List (List Char) := (linesOf t).map fun l => "┃    ".toList ++ l

/-- A horizontal line of a box, after its corner. -/
def rule : List Char := "━━━━━━━━━━━━━━━━━━━━━━━━━━━━━━━━━━━━━━━━━━━━━━━━━━━━━━━━━━━━━━━━".toList

/-- The word for the type of a model. -/
def typeWord : MType → String
  | .ising => "ising"
  | .qubo => "qubo"

/-- The characters up to 255 that Python takes as spaces: tab, line feed, vertical tab, form feed, carriage return, four
separators, space, next line, no-break space. -/
def spaces : List Char := ['\t', '\n', '\x0b', '\x0c', '\x0d', '\x1c', '\x1d', '\x1e', '\x1f', ' ', '\u0085', '\u00a0']

theorem lines_prefix (t : List Char) : lines (appendPrefix t 4) = boxed t := C105_prefix t 4

theorem lines_of_literal {s : List Char} (h : '\n' ∉ s) : lines s = [s] := lines_of_no_newline h

theorem mtypeText_eq (t : MType) : mtypeText t = (typeWord t).toList := by cases t <;> rfl

/-- **C105** A printed physical model, line by line. -/
theorem C105_physical_lines (hy : y.Flat) (p : Physical) : linesOf (physicalText y p) =
    ['┏' :: rule, "┃ PHYSICAL MODEL".toList, '┣' :: rule, "┣━ mtype: ".toList ++ (typeWord p.mtype).toList,
      "┣━ raw_interactions:".toList, "┃  linear:".toList] ++ boxed (y.linear p.linear) ++ ["┃  quadratic:".toList] ++
      boxed (y.quad p.quad) ++ ["┣━ offset: ".toList ++ y.num p.offset, '┗' :: rule] := by
  have hs : linesOf (physicalText y p) = _ := lines_join (by simp)
  rw [hs]
  have h1 : lines (chars "┣━ mtype: " ++ mtypeText p.mtype) = ["┣━ mtype: ".toList ++ (typeWord p.mtype).toList] := by
    cases p.mtype <;> decide +kernel
  have h2 : lines (chars "┣━ offset: " ++ y.num p.offset) = ["┣━ offset: ".toList ++ y.num p.offset] :=
    lines_of_no_newline (by simp only [List.mem_append, not_or]; exact ⟨by decide, hy.num _⟩)
  simp only [List.flatMap_cons, List.flatMap_nil, h1, h2, lines_prefix]
  rw [show lines (['┏'] ++ bar) = ['┏' :: rule] by decide +kernel, show lines (['┣'] ++ bar) = ['┣' :: rule] by decide +kernel,
    show lines (['┗'] ++ bar) = ['┗' :: rule] by decide +kernel,
    show lines (chars "┃ PHYSICAL MODEL") = ["┃ PHYSICAL MODEL".toList] by decide +kernel,
    show lines (chars "┣━ raw_interactions:") = ["┣━ raw_interactions:".toList] by decide +kernel,
    show lines (chars "┃  linear:") = ["┃  linear:".toList] by decide +kernel,
    show lines (chars "┃  quadratic:") = ["┃  quadratic:".toList] by decide +kernel]
  simp only [List.append_assoc, List.cons_append, List.nil_append, List.append_nil]

/-- **C105** A printed logical model, line by line, if the names of its arrays have no line ends. -/
theorem C105_lines_partial (hy : y.Flat) (hn : ∀ v ∈ m.vars, '\n' ∉ v.1.toList) {t : List Char}
    (h : (modelText y).run m = .ok t m) : linesOf t =
    ['┏' :: rule, "┃ LOGICAL MODEL".toList, '┣' :: rule, "┣━ mtype: ".toList ++ (typeWord m.mtype).toList,
      "┣━ variables: ".toList ++ y.keys (m.vars.map (·.1))] ++
      m.vars.flatMap (fun v => ("┃  name: ".toList ++ v.1.toList) :: boxed (y.array v.2)) ++ ["┣━ interactions:".toList] ++
      (if m.rows = [] then ["┃    Empty".toList] else boxed (y.table m)) ++
      ["┣━ offset: ".toList ++ y.coef m.offset, "┣━ constraints:".toList] ++ boxed (y.pretty m.constraints) ++ ['┗' :: rule] := by
  have ht : t = join ['\n'] (modelParts y m) := by
    by_cases hr : ∀ c ∈ m.attrCols, c.2.length = m.rows.length
    · rw [((C105_prints_partial y m).1 hr).1] at h
      cases h; rfl
    · rw [((C105_prints_partial y m).2 (by simpa using hr)).1] at h
      cases h
  subst ht
  have hs : linesOf (join ['\n'] (modelParts y m)) = (modelParts y m).flatMap lines := lines_join (by simp [modelParts])
  rw [hs]
  have h1 : lines (chars "┣━ mtype: " ++ mtypeText m.mtype) = ["┣━ mtype: ".toList ++ (typeWord m.mtype).toList] := by
    cases m.mtype <;> decide +kernel
  have h2 : lines (chars "┣━ offset: " ++ y.coef m.offset) = ["┣━ offset: ".toList ++ y.coef m.offset] :=
    lines_of_no_newline (by simp only [List.mem_append, not_or]; exact ⟨by decide, hy.coef _⟩)
  have h3 : lines (chars "┣━ variables: " ++ y.keys (m.vars.map (·.1))) = ["┣━ variables: ".toList ++ y.keys (m.vars.map (·.1))] :=
    lines_of_no_newline (by simp only [List.mem_append, not_or]; exact ⟨by decide, hy.keys _⟩)
  have h4 : (m.vars.flatMap (fun v => [chars "┃  name: " ++ chars v.1, appendPrefix (y.array v.2) 4])).flatMap lines =
      m.vars.flatMap (fun v => ("┃  name: ".toList ++ v.1.toList) :: boxed (y.array v.2)) := by
    rw [List.flatMap_assoc]
    refine List.flatMap_congr fun v hv => ?_
    rw [List.flatMap_cons, List.flatMap_cons, List.flatMap_nil, lines_prefix, List.append_nil,
      lines_of_no_newline (by simp only [List.mem_append, not_or]; exact ⟨by decide, hn v hv⟩)]
    rfl
  have h5 : lines (if m.rows.isEmpty = true then appendPrefix (chars "Empty") 4 else appendPrefix (y.table m) 4) =
      if m.rows = [] then ["┃    Empty".toList] else boxed (y.table m) := by
    by_cases he : m.rows = []
    · rw [if_pos he, if_pos (by simp [he])]; decide +kernel
    · rw [if_neg he, if_neg (by simpa using he), lines_prefix]
  unfold modelParts
  simp only [List.flatMap_append, List.flatMap_cons, List.flatMap_nil, h1, h2, h3, h4, h5, lines_prefix]
  rw [show lines (['┏'] ++ bar) = ['┏' :: rule] by decide +kernel, show lines (['┣'] ++ bar) = ['┣' :: rule] by decide +kernel,
    show lines (['┗'] ++ bar) = ['┗' :: rule] by decide +kernel,
    show lines (chars "┃ LOGICAL MODEL") = ["┃ LOGICAL MODEL".toList] by decide +kernel,
    show lines (chars "┣━ interactions:") = ["┣━ interactions:".toList] by decide +kernel,
    show lines (chars "┣━ constraints:") = ["┣━ constraints:".toList] by decide +kernel]
  simp only [List.append_assoc, List.cons_append, List.nil_append, List.append_nil]

/-- The hypotheses are met. -/
example : Ex.printer.Flat ∧ (∀ v ∈ Ex.ising.vars, '\n' ∉ v.1.toList) ∧ ∃ t, (modelText Ex.printer).run Ex.ising = .ok t Ex.ising :=
  ⟨⟨fun _ => by simp [Ex.printer], fun _ => by simp [Ex.printer], fun _ => by simp [Ex.printer]⟩, by decide +kernel, _, rfl⟩

/-- **C105** What the representation of a logical model shows, in this order: the type, the arrays but for spaces, the
interactions, the offset and the constraints. -/
theorem C105_repr_shows {t : List Char} (h : (modelRepr y).run m = .ok t m) :
    ∃ a, t = "LogicalModel({'mtype': '".toList ++ (typeWord m.mtype).toList ++ "', 'variables': ".toList ++ a ++
        ", 'interactions': ".toList ++ (if m.rows = [] then "'Empty'".toList else y.json m) ++ ", 'offset': ".toList ++
        y.coef m.offset ++ ", 'constraints': ".toList ++ y.constraints m.constraints ++ "})".toList ∧
      '\n' ∉ a ∧ a.filter (· ∉ spaces) = (y.arrays m.vars).filter (· ∉ spaces) := by
  have hr : (∀ c ∈ m.attrCols, c.2.length = m.rows.length) := by
    by_contra hc
    rw [((C105_prints_partial y m).2 (by simpa using hc)).2] at h
    cases h
  have : m.attrCols.any (fun c => decide (¬ c.2.length = m.rows.length)) = false := by
    simpa using fun a b hab => hr (a, b) hab
  unfold modelRepr makeFrame at h
  py_simp at h
  simp only [this, Bool.false_eq_true, if_false, Res.ok.injEq, and_true] at h
  subst h
  have hsp : ∀ c, (!isSpace c) = decide (c ∉ spaces) := by
    intro c
    have hinj : Function.Injective Char.toNat := fun a b h => Char.toNat_inj.mp h
    have : c ∈ spaces ↔ c.toNat ∈ [9, 10, 11, 12, 13, 28, 29, 30, 31, 32, 133, 160] := by
      rw [← List.mem_map_of_injective hinj]
      exact Iff.of_eq (congrArg (c.toNat ∈ ·) (by decide))
    by_cases h : c ∈ spaces
    · rw [isSpace, decide_eq_true (this.mp h), decide_eq_false (not_not.mpr h)]; rfl
    · rw [isSpace, decide_eq_false (fun h' => h (this.mpr h')), decide_eq_true h]; rfl
  obtain ⟨h1, h2⟩ := C105_one_line (y.arrays m.vars)
  refine ⟨removeLeadingSpaces (y.arrays m.vars), ?_, h1, ?_⟩
  · by_cases he : m.rows = []
    · simp [he, mtypeText_eq, chars]
    · simp [he, mtypeText_eq, chars]
  · simpa only [hsp] using h2

/-- **C105** What the representation of a physical model shows; the brackets close before the offset. -/
theorem C105_physical_repr_shows (p : Physical) : physicalRepr y p = "PhysicalModel({'mtype': '".toList ++ (typeWord p.mtype).toList ++
    "', 'raw_interactions': ".toList ++ y.raw p ++ "}), 'offset': ".toList ++ y.num p.offset := by
  have key : ∀ {a b c d e f t r n x1 x2 x3 t' : List Char}, a ++ b = x1 → c ++ d = x2 → e ++ f = x3 → t = t' →
      a ++ b ++ t ++ c ++ d ++ r ++ e ++ f ++ n = x1 ++ t' ++ x2 ++ r ++ x3 ++ n := by
    rintro a b c d e f t r n _ _ _ _ rfl rfl rfl rfl
    simp only [List.append_assoc]
  exact key (by decide +kernel) (by decide +kernel) (by decide +kernel) (mtypeText_eq _)

end Sawatabi.Props
