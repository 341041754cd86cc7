import Verif.Model.Printing
import Verif.Props.Output
import Verif.Props.History

/-!
# C105-C107: printed models, checks of types, clocks
-/

namespace Sawatabi.Props

open Text

variable {m : LModel} {y : Printer}

/-! ## Lines -/

theorem lines_no_newline (t : List Char) : ∀ l ∈ lines t, '\n' ∉ l := by
  unfold lines
  induction t with
  | nil => simp
  | cons c t ih =>
    rw [List.splitOn_cons_eq_if_modifyHead]
    by_cases hc : c = '\n'
    · simp only [hc, beq_self_eq_true, if_true, List.mem_cons]
      rintro l (rfl | hl)
      · simp
      · exact ih l hl
    · rw [if_neg (by simpa using hc)]
      cases h : t.splitOn '\n' with
      | nil => simp
      | cons a r =>
        rw [h] at ih
        simp only [List.modifyHead_cons, List.mem_cons]
        rintro l (rfl | hl)
        · simp only [List.mem_cons, not_or]
          exact ⟨fun e => hc e.symm, ih a (by simp)⟩
        · exact ih l (by simp [hl])

theorem lines_ne (t : List Char) : lines t ≠ [] := List.splitOn_ne_nil _ _

theorem lines_join {ps : List (List Char)} (h : ps ≠ []) : lines (join ['\n'] ps) = ps.flatMap lines := by
  induction ps with
  | nil => exact absurd rfl h
  | cons a ps ih =>
    cases ps with
    | nil => simp [join]
    | cons b ps =>
      rw [join, List.append_assoc, List.flatMap_cons, ← ih (by simp)]
      exact List.splitOn_append_cons_self _ _

theorem lines_of_no_newline {t : List Char} (h : '\n' ∉ t) : lines t = [t] := List.splitOn_eq_singleton h

theorem lines_append {a : List Char} (h : '\n' ∉ a) (t : List Char) :
    lines (a ++ t) = (lines t).modifyHead (a ++ ·) := by
  induction a with
  | nil => cases h : lines t <;> simp [h]
  | cons c a ih =>
    simp only [List.mem_cons, not_or] at h
    rw [List.cons_append, lines, List.splitOn_cons_eq_if_modifyHead, if_neg (by simpa using fun e => h.1 e.symm), ← lines, ih h.2]
    cases lines t <;> simp

/-- The text has lines that are the given text's, each with the prefix. -/
theorem C105_prefix (t : List Char) (n : Int) :
    (appendPrefix t n).splitOn '\n' =
      (t.splitOn '\n').map fun l => '┃' :: (List.replicate (if 0 ≤ n then n.natAbs else 0) ' ' ++ l) := by
  have hn : n.toNat = if 0 ≤ n then n.natAbs else 0 := by split <;> omega
  unfold appendPrefix
  rw [join_eq, List.splitOn_intercalate, hn]
  · simp [lines]
  · intro l hl
    obtain ⟨k, hk, rfl⟩ := List.mem_map.mp hl
    simp [lines_no_newline t k hk]
  · simp [lines]

/-- The text without its spaces (and line ends) is kept. -/
theorem C105_one_line (t : List Char) :
    '\n' ∉ removeLeadingSpaces t ∧
    (removeLeadingSpaces t).filter (fun c => !isSpace c) = t.filter (fun c => !isSpace c) := by
  have hj : ∀ ls : List (List Char), (∀ l ∈ ls, '\n' ∉ l) → '\n' ∉ join [' '] ls := by
    intro ls h
    induction ls with
    | nil => simp [join]
    | cons a ls ih =>
      have ih := ih fun l hl => h l (by simp [hl])
      have ha := h a (by simp)
      cases ls with
      | nil => simpa [join] using ha
      | cons b ls =>
        simp only [join, List.mem_append, not_or]
        exact ⟨⟨ha, by simp⟩, ih⟩
  constructor
  · apply hj
    intro l hl
    obtain ⟨k, hk, rfl⟩ := List.mem_map.mp hl
    exact fun h => lines_no_newline t k hk (List.dropWhile_sublist _ |>.mem h)
  · have h1 : ∀ sep : Char, isSpace sep = true → ∀ ls : List (List Char),
        (join [sep] ls).filter (fun c => !isSpace c) = ls.flatMap (fun l => l.filter fun c => !isSpace c) := by
      intro sep hs ls
      induction ls with
      | nil => simp [join]
      | cons a ls ih =>
        cases ls with
        | nil => simp [join]
        | cons b ls =>
          rw [join, List.filter_append, List.filter_append, ih]
          simp [hs]
    have h2 : t = join ['\n'] (lines t) := by
      rw [join_eq]
      exact (List.intercalate_splitOn '\n').symm
    have h3 : ∀ l : List Char, (l.dropWhile isSpace).filter (fun c => !isSpace c) = l.filter fun c => !isSpace c := by
      intro l
      induction l with
      | nil => rfl
      | cons c l ih =>
        by_cases hc : isSpace c = true
        · simp [hc, ih]
        · simp [hc]
    conv_rhs => rw [h2, h1 _ (by decide)]
    rw [removeLeadingSpaces, h1 _ (by decide), List.flatMap_map]
    simp only [h3]

/-! ## Models -/

/-- The characters on the left of a box. -/
def Edge (l : List Char) : Prop := ∃ c ∈ l.head?, c ∈ ['┏', '┃', '┣', '┗']

instance (l : List Char) : Decidable (Edge l) :=
  match h : l.head? with
  | none => isFalse (by simp [Edge, h])
  | some c => decidable_of_iff (c ∈ ['┏', '┃', '┣', '┗']) (by simp [Edge, h])

/-- Lists of names, types and numbers are written without line ends. -/
structure _root_.Sawatabi.Text.Printer.Flat (y : Printer) : Prop where
  keys : ∀ ks, '\n' ∉ y.keys ks
  coef : ∀ c, '\n' ∉ y.coef c
  num : ∀ q, '\n' ∉ y.num q

theorem edge_prefix (t : List Char) : ∀ l ∈ lines (appendPrefix t 4), Edge l := by
  intro l hl
  rw [lines, C105_prefix] at hl
  obtain ⟨k, -, rfl⟩ := List.mem_map.mp hl
  exact ⟨'┃', rfl, by simp⟩

/-- **C105** Printing works exactly if all columns have one entry for each interaction, and changes nothing. -/
theorem C105_prints_partial (y : Printer) (m : LModel) :
    ((∀ c ∈ m.attrCols, c.2.length = m.rows.length) → (modelText y).run m = .ok (join ['\n'] (modelParts y m)) m ∧
      ∃ t, (modelRepr y).run m = .ok t m) ∧
    ((∃ c ∈ m.attrCols, c.2.length ≠ m.rows.length) →
      (modelText y).run m = .error .valueError m ∧ (modelRepr y).run m = .error .valueError m) := by
  constructor
  · intro h
    have : m.attrCols.any (fun c => decide (¬ c.2.length = m.rows.length)) = false := by
      simpa using fun a b hab => h (a, b) hab
    unfold modelText modelRepr makeFrame
    py_simp
    simp only [this]
    exact ⟨rfl, _, rfl⟩
  · intro h
    have : m.attrCols.any (fun c => decide (¬ c.2.length = m.rows.length)) = true := by
      simpa using h
    unfold modelText modelRepr makeFrame
    py_simp
    simp only [this]
    exact ⟨rfl, rfl⟩

/-- **C105** Models made by calls whose updates name registered attribute keys can be printed. -/
theorem C105_made_partial {env : Env} {mt : MType} {id : String} (h : Reach env RectSafe (LModel.new mt id) m) (y : Printer) :
    (∃ t, (modelText y).run m = .ok t m) ∧ ∃ t, (modelRepr y).run m = .ok t m :=
  have := (C105_prints_partial y m).1 (C08_rect_partial h).cols
  ⟨⟨_, this.1⟩, this.2⟩

/-- After an update with a new attribute key and an add, a model cannot be printed any more. -/
theorem C105_ragged_refuted (y : Printer) :
    let m := Ex.after (LModel.new .ising "1") (do
      addInteraction 1 (.var Ex.x0) (.str "") (.num 1) (.num 1) .none .none
      updateInteraction 0 2 .none (.str "x[0]") none none (.dict [("a", .num 7)]) none
      addInteraction 3 (.var Ex.x1) (.str "") (.num 1) (.num 1) .none .none)
    (modelText y).run m = .error .valueError m := by
  intro m
  refine ((C105_prints_partial y m).2 ?_).1
  have h : m.attrCols.map (·.2.length) = [1] := C08_rect_refuted.2.1
  have hl : m.rows.length = 2 := C08_rect_refuted.1
  have : 1 ∈ m.attrCols.map (·.2.length) := by rw [h]; simp
  obtain ⟨c, hc, he⟩ := List.mem_map.mp this
  exact ⟨c, hc, by rw [hl, he]; decide⟩

theorem mtype_flat (mt : MType) : '\n' ∉ mtypeText mt := by cases mt <;> decide

theorem all_edge_append {a b : List Char} (ha : Edge a) (hb : '\n' ∉ a) (hb' : '\n' ∉ b) : ∀ l ∈ lines (a ++ b), Edge l := by
  rw [lines_of_no_newline (by simp [hb, hb'])]
  simp only [List.mem_singleton, forall_eq]
  obtain ⟨c, hc, hm⟩ := ha
  cases a with
  | nil => simp at hc
  | cons d a => exact ⟨c, hc, hm⟩

theorem all_edge {a : List Char} (ha : Edge a) (hb : '\n' ∉ a) : ∀ l ∈ lines a, Edge l := by
  have := all_edge_append ha hb (b := []) (by simp)
  rwa [List.append_nil] at this

/-- **C105** The printed model is a box: its lines all begin with the edge, exactly if no array has a name with a line end
(followed by anything but the edge). -/
theorem C105_box_partial (hy : y.Flat) (m : LModel) :
    (∀ l ∈ (join ['\n'] (modelParts y m)).splitOn '\n', Edge l) ↔
      ∀ v ∈ m.vars, ∀ l ∈ (v.1.toList.splitOn '\n').tail, Edge l := by
  have hs : (join ['\n'] (modelParts y m)).splitOn '\n' = (modelParts y m).flatMap lines := lines_join (by simp [modelParts])
  have hif : (if m.rows.isEmpty then appendPrefix (chars "Empty") 4 else appendPrefix (y.table m) 4) =
      appendPrefix (if m.rows.isEmpty then chars "Empty" else y.table m) 4 := by split <;> rfl
  rw [hs]
  unfold modelParts
  rw [hif]
  simp only [List.flatMap_append, List.mem_append, or_imp, forall_and, List.flatMap_cons, List.flatMap_nil, List.not_mem_nil,
    false_imp_iff, implies_true, and_true]
  have h1 := all_edge (a := ['┏'] ++ bar) (by decide) (by decide)
  have h2 := all_edge (a := chars "┃ LOGICAL MODEL") (by decide) (by decide)
  have h3 := all_edge (a := ['┣'] ++ bar) (by decide) (by decide)
  have h4 := all_edge_append (a := chars "┣━ mtype: ") (by decide) (by decide) (mtype_flat m.mtype)
  have h5 := all_edge_append (a := chars "┣━ variables: ") (by decide) (by decide) (hy.keys (m.vars.map (·.1)))
  have h6 := all_edge (a := chars "┣━ interactions:") (by decide) (by decide)
  have h7 := all_edge_append (a := chars "┣━ offset: ") (by decide) (by decide) (hy.coef m.offset)
  have h8 := all_edge (a := chars "┣━ constraints:") (by decide) (by decide)
  have h9 := all_edge (a := ['┗'] ++ bar) (by decide) (by decide)
  have hv : ∀ v : String × VArray, (∀ l ∈ lines (chars "┃  name: " ++ chars v.1), Edge l) ↔
      ∀ l ∈ (v.1.toList.splitOn '\n').tail, Edge l := by
    intro v
    rw [lines_append (by decide)]
    have hne := lines_ne (chars v.1)
    show _ ↔ ∀ l ∈ (lines (chars v.1)).tail, Edge l
    cases h : lines (chars v.1) with
    | nil => exact absurd h hne
    | cons a r =>
      simp only [List.modifyHead_cons, List.mem_cons, forall_eq_or_imp, List.tail_cons, and_iff_right_iff_imp]
      intro _
      have e : chars "┃  name: " = '┃' :: chars "  name: " := by decide
      rw [e]
      exact ⟨'┃', rfl, by simp⟩
  refine ⟨fun h v hvm => (hv v).mp fun l hl => ?_, fun h => ?_⟩
  · refine h.1.2 l ?_
    rw [List.mem_flatMap]
    refine ⟨chars "┃  name: " ++ chars v.1, ?_, hl⟩
    rw [List.mem_flatMap]
    exact ⟨v, hvm, by simp⟩
  · refine ⟨⟨⟨h1, h2, h3, h4, h5⟩, ?_⟩, h6, edge_prefix _, h7, h8, edge_prefix _, h9⟩
    intro l hl
    rw [List.mem_flatMap] at hl
    obtain ⟨p, hp, hl⟩ := hl
    rw [List.mem_flatMap] at hp
    obtain ⟨v, hvm, hp⟩ := hp
    simp only [List.mem_cons, List.not_mem_nil, or_false] at hp
    rcases hp with rfl | rfl
    · exact (hv v).mpr (h v hvm) l hl
    · exact edge_prefix _ l hl

/-- **C105** The printed model shows the arrays by name, the interactions, the offset and the constraints. -/
theorem C105_shows (hy : y.Flat) (m : LModel) :
    (∀ v ∈ m.vars, '\n' ∉ v.1.toList → "┃  name: ".toList ++ v.1.toList ∈ (join ['\n'] (modelParts y m)).splitOn '\n') ∧
    (∀ v ∈ m.vars, ∀ l ∈ (y.array v.2).splitOn '\n', "┃    ".toList ++ l ∈ (join ['\n'] (modelParts y m)).splitOn '\n') ∧
    (m.rows ≠ [] → ∀ l ∈ (y.table m).splitOn '\n', "┃    ".toList ++ l ∈ (join ['\n'] (modelParts y m)).splitOn '\n') ∧
    (∀ l ∈ (y.pretty m.constraints).splitOn '\n', "┃    ".toList ++ l ∈ (join ['\n'] (modelParts y m)).splitOn '\n') ∧
    "┣━ offset: ".toList ++ y.coef m.offset ∈ (join ['\n'] (modelParts y m)).splitOn '\n' ∧
    "┣━ mtype: ".toList ++ mtypeText m.mtype ∈ (join ['\n'] (modelParts y m)).splitOn '\n' := by
  have hs : (join ['\n'] (modelParts y m)).splitOn '\n' = (modelParts y m).flatMap lines := lines_join (by simp [modelParts])
  rw [hs]
  have hp : ∀ t : List Char, ∀ l ∈ t.splitOn '\n', "┃    ".toList ++ l ∈ lines (appendPrefix t 4) := by
    intro t l hl
    rw [lines, C105_prefix]
    exact List.mem_map.mpr ⟨l, hl, rfl⟩
  have hin : ∀ {p l : List Char}, p ∈ modelParts y m → l ∈ lines p → l ∈ (modelParts y m).flatMap lines :=
    fun h1 h2 => List.mem_flatMap.mpr ⟨_, h1, h2⟩
  have hself : ∀ {a b : List Char}, '\n' ∉ a → '\n' ∉ b → a ++ b ∈ lines (a ++ b) := by
    intro a b ha hb
    rw [lines_of_no_newline (by simp [ha, hb])]
    simp
  have hvar : ∀ v ∈ m.vars, ∀ p ∈ [chars "┃  name: " ++ chars v.1, appendPrefix (y.array v.2) 4], p ∈ modelParts y m := by
    intro v hv p hp
    unfold modelParts
    exact List.mem_append_left _ (List.mem_append_right _ (List.mem_flatMap.mpr ⟨v, hv, hp⟩))
  refine ⟨fun v hv hn => hin (hvar v hv _ (List.mem_cons_self ..)) (hself (by decide) hn), fun v hv l hl => hin (hvar v hv _ (by simp)) (hp _ l hl),
    fun hr l hl => hin (p := appendPrefix (y.table m) 4) ?_ (hp _ l hl), fun l hl => hin ?_ (hp _ l hl),
    hin ?_ (hself (by decide) (hy.coef _)), hin ?_ (hself (by decide) (mtype_flat _))⟩
  · have : m.rows.isEmpty = false := by simpa using hr
    unfold modelParts
    simp [this]
  · unfold modelParts
    exact List.mem_append_right _ (by simp)
  · unfold modelParts
    exact List.mem_append_right _ (by simp [chars])
  · unfold modelParts
    exact List.mem_append_left _ (List.mem_append_left _ (by simp [chars]))

/-- **C105** Printed physical models are always boxes. -/
theorem C105_physical_box (hy : y.Flat) (p : Physical) : ∀ l ∈ (physicalText y p).splitOn '\n', Edge l := by
  have hs : (physicalText y p).splitOn '\n' = _ := lines_join (by simp)
  rw [hs]
  simp only [List.mem_append, or_imp, forall_and, List.flatMap_cons, List.flatMap_nil, List.not_mem_nil,
    false_imp_iff, implies_true, and_true]
  exact ⟨all_edge (a := ['┏'] ++ bar) (by decide) (by decide), all_edge (a := chars "┃ PHYSICAL MODEL") (by decide) (by decide),
    all_edge (a := ['┣'] ++ bar) (by decide) (by decide), all_edge_append (a := chars "┣━ mtype: ") (by decide) (by decide) (mtype_flat _),
    all_edge (by decide) (by decide), all_edge (by decide) (by decide), edge_prefix _, all_edge (by decide) (by decide), edge_prefix _,
    all_edge_append (a := chars "┣━ offset: ") (by decide) (by decide) (hy.num _), all_edge (a := ['┗'] ++ bar) (by decide) (by decide)⟩

/-- **C105** The representation of a logical model stands in its brackets, on one line if those of its parts do. -/
theorem C105_repr {t : List Char} (h : (modelRepr y).run m = .ok t m) :
    (∃ s, t = "LogicalModel({".toList ++ s ++ "})".toList) ∧
    ('\n' ∉ y.json m → '\n' ∉ y.coef m.offset → '\n' ∉ y.constraints m.constraints → '\n' ∉ t) := by
  have hr : (∀ c ∈ m.attrCols, c.2.length = m.rows.length) := by
    by_contra hc
    rw [((C105_prints_partial y m).2 (by simpa using hc)).2] at h
    cases h
  have : m.attrCols.any (fun c => decide (¬ c.2.length = m.rows.length)) = false := by
    simpa using fun a b hab => hr (a, b) hab
  unfold modelRepr makeFrame at h
  py_simp at h
  simp only [this, Bool.false_eq_true, if_false, Res.ok.injEq, and_true] at h
  subst h
  have h1 := (C105_one_line (y.arrays m.vars)).1
  have h2 := mtype_flat m.mtype
  constructor
  · simp only [List.append_assoc]
    refine ⟨chars "'mtype': '" ++ (mtypeText m.mtype ++ (chars "', " ++ (chars "'variables': " ++
      (removeLeadingSpaces (y.arrays m.vars) ++ (chars ", " ++ ((if m.rows.isEmpty = true then chars "'interactions': 'Empty', "
      else chars "'interactions': " ++ (y.json m ++ chars ", ")) ++ (chars "'offset': " ++ (y.coef m.offset ++ (chars ", " ++
      (chars "'constraints': " ++ y.constraints m.constraints)))))))))), ?_⟩
    simp only [List.append_assoc]
  · intro h3 h4 h5
    have h6 : '\n' ∉ (if m.rows.isEmpty = true then chars "'interactions': 'Empty', "
      else chars "'interactions': " ++ y.json m ++ chars ", ") := by
      split
      · decide
      · simp only [List.mem_append, h3, not_or, not_false_eq_true, and_true]
        decide
    simp only [List.mem_append, h1, h2, h3, h4, h5, h6, not_or, not_false_eq_true, and_true]
    decide

/-- The representation of a physical model does not: the brackets close before the offset. -/
theorem C105_physical_repr_refuted (p : Physical) (h : ')' ∉ y.num p.offset) :
    ¬ ∃ s, physicalRepr y p = "PhysicalModel({".toList ++ s ++ "})".toList := by
  rintro ⟨s, hs⟩
  unfold physicalRepr at hs
  rw [List.append_assoc _ (chars "'offset': ")] at hs
  have hl := congrArg List.getLast? hs
  have hn : chars "'offset': " ++ y.num p.offset ≠ [] := by simp
  have hn' : "})".toList ≠ [] := by decide
  rw [List.getLast?_append_of_ne_nil _ hn, List.getLast?_append_of_ne_nil _ hn'] at hl
  have : ')' ∈ chars "'offset': " ++ y.num p.offset := List.mem_of_getLast? (hl.trans (by decide))
  rw [List.mem_append] at this
  rcases this with h' | h'
  · exact absurd h' (by decide)
  · exact h h'

/-- Formats without line ends. -/
def Ex.printer : Printer := ⟨fun _ => ['k'], fun _ => ['a', '\n', 'b'], fun _ => ['a'], fun _ => ['t'], fun _ => ['j'], fun _ => ['0'],
  fun _ => ['0'], fun _ => ['c'], fun _ => ['c'], fun _ => ['l'], fun _ => ['q'], fun _ => ['r']⟩

example : Ex.printer.Flat := ⟨fun _ => by simp [Ex.printer], fun _ => by simp [Ex.printer], fun _ => by simp [Ex.printer]⟩

/-- An array whose name has a line end breaks the box. -/
theorem C105_name_refuted : ∃ t, (modelText Ex.printer).run { LModel.new .ising "1" with vars := [("a\nb", ⟨[1], []⟩)] } =
    .ok t { LModel.new .ising "1" with vars := [("a\nb", ⟨[1], []⟩)] } ∧ ¬ ∀ l ∈ t.splitOn '\n', Edge l := by
  refine ⟨_, ((C105_prints_partial _ _).1 (by simp [LModel.new])).1, fun h => ?_⟩
  have := (C105_box_partial ⟨fun _ => by simp [Ex.printer], fun _ => by simp [Ex.printer], fun _ => by simp [Ex.printer]⟩ _).mp h
    ("a\nb", ⟨[1], []⟩) (by simp) ['b'] (by decide +kernel)
  exact absurd this (by decide)

/-! ## C106: checks of types -/

section
variable {T V : Type} {isInstance : V → T → Bool}

/-- **C106** -/
theorem C106_all (vs : List V) (types : List T) :
    ((vs ≠ [] ∧ ∀ v ∈ vs, ∃ t ∈ types, isInstance v t = true) → checkTypes isInstance vs types = .ok ⟨⟩) ∧
    (¬ (vs ≠ [] ∧ ∀ v ∈ vs, ∃ t ∈ types, isInstance v t = true) → checkTypes isInstance vs types = .error .typeError) := by
  have hf : ∀ (v : V) (ts : List T) (b : Bool), ts.foldl (fun ok t => if isInstance v t then true else ok) b =
      (b || ts.any (isInstance v)) := by
    intro v ts
    induction ts with
    | nil => simp
    | cons t ts ih =>
      intro b
      rw [List.foldl_cons, ih]
      by_cases h : isInstance v t = true <;> simp [h]
  have hm : ∀ us : List V, (us.forM fun v => do
      let ok := types.foldl (fun ok t => if isInstance v t then true else ok) false
      if !ok then throw Err.typeError : Except Err Unit) =
      if ∀ v ∈ us, ∃ t ∈ types, isInstance v t = true then .ok ⟨⟩ else .error .typeError := by
    intro us
    induction us with
    | nil => simp; rfl
    | cons v us ih =>
      rw [List.forM_eq_forM, List.forM_cons, ← List.forM_eq_forM, ih, hf]
      by_cases hv : types.any (isInstance v) = true
      · have hv' : ∃ t ∈ types, isInstance v t = true := by simpa using hv
        simp only [hv, Bool.or_true, Bool.not_true, Bool.false_eq_true, if_false, List.mem_cons, forall_eq_or_imp, hv', true_and]
        rfl
      · have hv' : ¬ ∃ t ∈ types, isInstance v t = true := by simpa using hv
        simp only [List.mem_cons, forall_eq_or_imp, hv', false_and, if_false]
        simp only [hv, Bool.or_self]
        simp [throw, throwThe, MonadExceptOf.throw, bind, Except.bind, hv]
  unfold checkTypes
  cases vs with
  | nil => simp [throw, throwThe, MonadExceptOf.throw, bind, Except.bind]
  | cons v vs =>
    rw [hm]
    constructor
    · intro h
      rw [if_neg (by simp), if_pos h.2]
    · intro h
      rw [if_neg (by simp), if_neg fun h' => h ⟨by simp, h'⟩]

/-- **C106** A single value passes exactly if it is an instance of one of the classes. -/
theorem C106_one (v : V) (types : List T) :
    (checkType isInstance v types = .ok ⟨⟩ ↔ ∃ t ∈ types, isInstance v t = true) ∧
    (checkType isInstance v types = .error .typeError ↔ ∀ t ∈ types, isInstance v t = false) := by
  unfold checkType
  by_cases h : types.any (isInstance v) = true
  · rw [if_pos h]
    obtain ⟨t, ht, hv⟩ := List.any_eq_true.mp h
    refine ⟨⟨fun _ => ⟨t, ht, hv⟩, fun _ => rfl⟩, ⟨fun h => (by cases h), fun h => ?_⟩⟩
    rw [h t ht] at hv
    cases hv
  · rw [if_neg h]
    have h' : ∀ t ∈ types, isInstance v t = false := by simpa using h
    refine ⟨⟨fun h => (by cases h), fun ⟨t, ht, hv⟩ => ?_⟩, ⟨fun _ => h', fun _ => rfl⟩⟩
    rw [h' t ht] at hv
    cases hv

end

/-- **C106** The article in messages is `an` before the vowels, small or large, and `a` before anything else. -/
theorem C106_article (c : Char) (t : List Char) :
    article (c :: t) = .ok (if c ∈ "aeiouAEIOU".toList then "an".toList else "a".toList) := by
  have h : c.toLower ∈ ['a', 'e', 'i', 'o', 'u'] ↔ c ∈ "aeiouAEIOU".toList := by
    by_cases hc : c.val ≥ 'A'.val ∧ c.val ≤ 'Z'.val
    · have hn : c.toNat < 91 := Nat.lt_succ_of_le hc.2
      have hall : ∀ n < 91, (Char.ofNat n).toLower ∈ ['a', 'e', 'i', 'o', 'u'] ↔ Char.ofNat n ∈ "aeiouAEIOU".toList := by
        decide +kernel
      have := hall c.toNat hn
      rwa [Char.ofNat_toNat] at this
    · have e : c.toLower = c := by
        unfold Char.toLower
        rw [dif_neg hc]
      rw [e]
      have hs : "aeiouAEIOU".toList = ['a', 'e', 'i', 'o', 'u', 'A', 'E', 'I', 'O', 'U'] := by decide
      rw [hs]
      simp only [List.mem_cons, List.not_mem_nil, or_false]
      constructor
      · tauto
      · rintro (h | h | h | h | h | rfl | rfl | rfl | rfl | rfl)
        · tauto
        · tauto
        · tauto
        · tauto
        · tauto
        all_goals exact absurd (by decide) hc
  show (if c.toLower ∈ ['a', 'e', 'i', 'o', 'u'] then Except.ok (chars "an") else Except.ok (chars "a")) = _
  by_cases hv : c ∈ "aeiouAEIOU".toList
  · rw [if_pos (h.mpr hv), if_pos hv]
  · rw [if_neg (fun h' => hv (h.mp h')), if_neg hv]

example : article "Express".toList = .ok "an".toList ∧ article "dict".toList = .ok "a".toList := by decide +kernel

example : checkTypes (fun (v : Nat) (t : Nat) => v % t == 0) [4, 9] [2, 3] = .ok ⟨⟩ ∧
    checkTypes (fun (v : Nat) (t : Nat) => v % t == 0) [4, 5] [2, 3] = .error .typeError := by decide

/-! ## C107: clocks -/

theorem pyTrunc_tdiv (t : ℚ) (k : ℕ) (hk : 0 < k) : (pyTrunc (t * k)).tdiv k = pyTrunc t := by
  have hk' : (0 : ℚ) < k := by exact_mod_cast hk
  have key : ∀ x : ℚ, 0 ≤ x → (⌊x * k⌋).tdiv k = ⌊x⌋ := by
    intro x hx
    rw [Int.tdiv_eq_ediv_of_nonneg (Int.floor_nonneg.mpr (by positivity)), ← Int.floor_div_natCast]
    rw [mul_div_assoc, div_self hk'.ne', mul_one]
  unfold pyTrunc
  by_cases h : 0 ≤ t
  · rw [if_pos h, if_pos (by positivity), key t h]
  · have h' : t < 0 := not_le.mp h
    rw [if_neg h, if_neg (not_le.mpr (mul_neg_of_neg_of_pos h' hk')), ← neg_mul, Int.neg_tdiv, key (-t) (by linarith)]

/-- **C107** For one reading of the clock: the times are the same in other units, and each whole number is the one of a finer
clock divided (and cut) by the ratio. -/
theorem C107_units (t : ℚ) :
    ((timeMs t).1 = 1000 * (timeS t).1 ∧ (timeUs t).1 = 1000 * (timeMs t).1 ∧ (timeNs t).1 = 1000 * (timeUs t).1) ∧
    ((timeS t).2 = (timeMs t).2.tdiv 1000 ∧ (timeMs t).2 = (timeUs t).2.tdiv 1000 ∧ (timeUs t).2 = (timeNs t).2.tdiv 1000) := by
  have h : ∀ x : ℚ, (pyTrunc (x * 1000)).tdiv 1000 = pyTrunc x := fun x => by exact_mod_cast pyTrunc_tdiv x 1000 (by decide)
  unfold timeS timeMs timeUs timeNs
  refine ⟨⟨by ring, by ring, by ring⟩, (h _).symm, ?_, ?_⟩
  · rw [← h (t * 1000)]; ring_nf
  · rw [← h (t * 1000000)]; ring_nf

/-- **C107** The whole number is at most one unit away from the time, towards zero. -/
theorem C107_whole (t : ℚ) : |((timeS t).2 : ℚ)| ≤ |t| ∧ |t - (timeS t).2| < 1 := by
  unfold timeS pyTrunc
  by_cases h : 0 ≤ t
  · simp only [h, if_true]
    have h1 := Int.floor_le t
    have h2 := Int.lt_floor_add_one t
    have h3 : (0 : ℚ) ≤ ⌊t⌋ := by exact_mod_cast Int.floor_nonneg.mpr h
    rw [abs_of_nonneg h, abs_of_nonneg h3, abs_lt]
    exact ⟨h1, by linarith, by linarith⟩
  · have h' : t < 0 := not_le.mp h
    simp only [h, if_false]
    have h1 := Int.floor_le (-t)
    have h2 := Int.lt_floor_add_one (-t)
    have h3 : (0 : ℚ) ≤ ⌊-t⌋ := by exact_mod_cast Int.floor_nonneg.mpr (by linarith : 0 ≤ -t)
    push_cast
    rw [abs_neg, abs_of_neg h', abs_of_nonneg h3, abs_lt]
    exact ⟨h1, by linarith, by linarith⟩

example : timeMs (7 / 2) = (3500, 3500) ∧ timeS (-7 / 2) = (-7 / 2, -3) := by decide +kernel

end Sawatabi.Props
