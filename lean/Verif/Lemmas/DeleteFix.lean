import Verif.Lemmas.Inv
import Verif.Lemmas.Getters
import Verif.Lemmas.Rect
import Mathlib.Tactic.Ring

/-!
# Deleting and fixing variables
-/

namespace Sawatabi

/-! ## Coefficients -/

theorem Coef.eval_toExpr (ρ : PEnv) (c : Coef) : c.toExpr.eval ρ = c.eval ρ := by cases c <;> rfl

theorem Coef.eval_mul (ρ : PEnv) (a b : Coef) : (a.mul b).eval ρ = a.eval ρ * b.eval ρ := by
  cases a <;> cases b <;> simp [Coef.mul, Coef.eval, PExpr.eval, Coef.toExpr]

theorem Coef.eval_add (ρ : PEnv) (a b : Coef) : (a.add b).eval ρ = a.eval ρ + b.eval ρ := by
  cases a <;> cases b <;> simp [Coef.add, Coef.eval, PExpr.eval, Coef.toExpr]

/-! ## Dictionaries with a known prefix -/

section dict
variable {κ ν : Type} [DecidableEq κ]

theorem dget_append_right {pre d : List (κ × ν)} {k : κ} (h : k ∉ dkeys pre) :
    dget (pre ++ d) k = dget d k := by
  induction pre with
  | nil => rfl
  | cons p pre ih =>
    simp only [dkeys, List.map_cons, List.mem_cons, not_or] at h
    simp only [List.cons_append, dget, if_neg (Ne.symm h.1)]
    exact ih h.2

theorem dset_append_right {pre d : List (κ × ν)} {k : κ} (v : ν) (h : k ∉ dkeys pre) :
    dset (pre ++ d) k v = pre ++ dset d k v := by
  induction pre with
  | nil => rfl
  | cons p pre ih =>
    simp only [dkeys, List.map_cons, List.mem_cons, not_or] at h
    simp only [List.cons_append, dset, if_neg (Ne.symm h.1), ih h.2]

end dict

/-! ## Removing several interactions by name -/

theorem removeEmpty_run (m : LModel) :
    (removeInteraction .none (.str "")).run m = .error .valueError m := by
  rw [removeInteraction_run]
  rfl

theorem rmRow_rmRow (r : Row) : rmRow (rmRow r) = rmRow r := rfl

/-- The rows after removing all names in `ns`. -/
def rmNames (ns : List String) (rows : List Row) : List Row :=
  rows.map fun r => if r.name ∈ ns then rmRow r else r

theorem rmNames_names (ns : List String) (rows : List Row) :
    (rmNames ns rows).map (·.name) = rows.map (·.name) := by
  rw [rmNames, List.map_map]
  apply List.map_congr_left
  intro r _
  simp only [Function.comp]
  split <;> rfl

theorem removeLoop_run (ns : List String) (m : LModel) (hne : ∀ n ∈ ns, n ≠ "")
    (hmem : ∀ n ∈ ns, n ∈ m.names) (hu : m.names.Nodup) :
    (ns.forM fun n => removeInteraction .none (.str n)).run m =
      .ok ⟨⟩ { m with rows := rmNames ns m.rows } := by
  induction ns generalizing m with
  | nil =>
    rw [Py.run_forM_nil]
    simp [rmNames]
  | cons n ns ih =>
    rw [Py.run_forM_cons, removeByName_run n (hne n (by simp))]
    obtain ⟨i, hi⟩ := indexOf_mem (hmem n (by simp))
    obtain ⟨hlt, hnm⟩ := indexOf_ok hi
    rw [hi]
    simp only
    rw [modify_eq_map_of_unique rmRow hu hlt hnm]
    have hnames : (m.rows.map fun r => if r.name = n then rmRow r else r).map (·.name) =
        m.rows.map (·.name) := by
      have := rmNames_names [n] m.rows
      simpa [rmNames] using this
    rw [ih _ (fun a ha => hne a (by simp [ha]))
      (fun a ha => by simp only [LModel.names, hnames]; exact hmem a (by simp [ha]))
      (by simp only [LModel.names, hnames]; exact hu)]
    congr 2
    simp only [rmNames, List.map_map]
    apply List.map_congr_left
    intro r _
    simp only [Function.comp, List.mem_cons]
    by_cases h1 : r.name = n
    · subst h1
      simp only [if_true, true_or]
      split <;> rfl
    · simp [h1]

theorem removeLoop_ne {ns : List String} {m m' : LModel}
    (h : (ns.forM fun n => removeInteraction .none (.str n)).run m = .ok ⟨⟩ m') : ∀ n ∈ ns, n ≠ "" := by
  induction ns generalizing m with
  | nil => simp
  | cons n ns ih =>
    rw [Py.run_forM_cons] at h
    by_cases hn : n = ""
    · subst hn
      rw [removeEmpty_run] at h
      cases h
    · cases hr : (removeInteraction .none (.str n)).run m with
      | error e t => rw [hr] at h; cases h
      | ok u t =>
        rw [hr] at h
        intro a ha
        rcases List.mem_cons.mp ha with rfl | ha
        · exact hn
        · exact ih h a ha

/-! ## The rows that touch a variable -/

/-- The names selected by `select_interactions_by_variable`. -/
def touching (l : String) (rows : List Row) : List String := (rows.filter (·.touches l)).map (·.name)

theorem selectByVariable_run (v : PVar) (m : LModel) :
    (selectByVariable v).run m =
      if m.attrCols.any (fun c => c.2.length ≠ m.rows.length) then .error .valueError m
      else .ok (touching v.label m.rows) m := by
  unfold selectByVariable makeFrame
  py_simp
  by_cases h : (m.attrCols.any fun c => decide (c.2.length ≠ m.rows.length)) = true
  · rw [if_pos h, if_pos h]
  · rw [if_neg h, if_neg h]
    rfl

theorem selectByVariable_rect (v : PVar) {m : LModel} (hm : m.Rect) :
    (selectByVariable v).run m = .ok (touching v.label m.rows) m := by
  rw [selectByVariable_run, if_neg]
  simp only [List.any_eq_true, not_exists, not_and]
  intro p hp
  simp [hm.cols p hp]

theorem mem_touching {l : String} {rows : List Row} (hu : (rows.map (·.name)).Nodup) {r : Row}
    (hr : r ∈ rows) : r.name ∈ touching l rows ↔ r.touches l = true := by
  unfold touching
  rw [List.mem_map]
  constructor
  · rintro ⟨r', hr', he⟩
    rw [List.mem_filter] at hr'
    have : r' = r := List.inj_on_of_nodup_map hu hr'.1 hr he
    rw [← this]
    exact hr'.2
  · intro h
    exact ⟨r, List.mem_filter.mpr ⟨hr, h⟩, rfl⟩

theorem touching_sub {l : String} {rows : List Row} : ∀ n ∈ touching l rows, n ∈ rows.map (·.name) := by
  intro n hn
  unfold touching at hn
  obtain ⟨r, hr, rfl⟩ := List.mem_map.mp hn
  exact List.mem_map.mpr ⟨r, (List.mem_filter.mp hr).1, rfl⟩

theorem rmNames_touching {l : String} {rows : List Row} (hu : (rows.map (·.name)).Nodup) :
    rmNames (touching l rows) rows = rows.map fun r => if r.touches l then rmRow r else r := by
  unfold rmNames
  apply List.map_congr_left
  intro r hr
  simp only [mem_touching hu hr]

/-- An interaction that touches `l` vanishes at `l := 0`; another one does not notice. -/
theorem term_subst_zero (ρ : PEnv) (σ : Assign) (r : Row) (l : String) :
    r.term ρ (σ.subst l 0) = if r.touches l then 0 else r.term ρ σ := by
  unfold Row.term Row.touches
  split
  · simp
  · cases r.inter with
    | lin v =>
      simp only [Inter.value, Inter.key0, Inter.key1, Assign.subst]
      by_cases h : v.label = l <;> simp [h]
    | quad v w =>
      simp only [Inter.value, Inter.key0, Inter.key1, Assign.subst]
      by_cases h : v.label = l <;> by_cases h' : w.label = l <;> simp [h, h']

theorem term_subst_of_not_touches {r : Row} {l : String} (h : r.touches l = false) (ρ : PEnv) (σ : Assign)
    (a : ℚ) : r.term ρ (σ.subst l a) = r.term ρ σ := by
  unfold Row.term
  unfold Row.touches at h
  split
  · rfl
  · congr 1
    cases hi : r.inter with
    | lin v =>
      rw [hi] at h
      have h' : v.label ≠ l := by
        rintro rfl
        simp [Inter.key0, Inter.key1] at h
      simp only [Inter.value, Assign.subst, if_neg h']
    | quad v w =>
      rw [hi] at h
      have h' : v.label ≠ l ∧ w.label ≠ l := by
        constructor <;> rintro rfl <;> simp [Inter.key0, Inter.key1] at h
      simp only [Inter.value, Assign.subst, if_neg h'.1, if_neg h'.2]

/-! ## The constraints in `delete_variable` -/

theorem removeFromConstraint_rel (v : PVar) (l : String) (s : LModel) :
    ∃ cs, ((removeFromConstraint v l).run s).state = { s with constraints := cs } := by
  unfold removeFromConstraint
  py_simp
  cases dget s.constraints l with
  | none => exact ⟨s.constraints, rfl⟩
  | some c =>
    simp only [Py.run_bind]
    cases c.removeVariable v with
    | error e => exact ⟨s.constraints, rfl⟩
    | ok c' => exact ⟨_, rfl⟩

theorem removeFromConstraints_rel (v : PVar) (ls : List String) (s : LModel) :
    ∃ cs, ((ls.forM (removeFromConstraint v)).run s).state = { s with constraints := cs } :=
  Py.forM_rel (R := fun s t => ∃ cs, t = { s with constraints := cs }) (fun s => ⟨s.constraints, rfl⟩)
    (by rintro a b c ⟨c₁, rfl⟩ ⟨c₂, rfl⟩; exact ⟨c₂, rfl⟩) _ ls
    (fun l _ s => removeFromConstraint_rel v l s) s

/-- The constraints after removing a variable from each. -/
def constraintsWithout (v : PVar) : List (String × Constraint) → Except Err (List (String × Constraint))
  | [] => .ok []
  | (l, c) :: d =>
    match c.removeVariable v with
    | .error e => .error e
    | .ok c' =>
      match constraintsWithout v d with
      | .error e => .error e
      | .ok d' => .ok ((l, c') :: d')

theorem dkeys_constraintsWithout {v : PVar} {d d' : List (String × Constraint)}
    (h : constraintsWithout v d = .ok d') : dkeys d' = dkeys d := by
  induction d generalizing d' with
  | nil => cases h; rfl
  | cons p d ih =>
    obtain ⟨l, c⟩ := p
    simp only [constraintsWithout] at h
    split at h
    · cases h
    split at h
    · cases h
    rename_i d'' hd
    cases h
    simp only [dkeys, List.map_cons] at ih ⊢
    rw [ih hd]

theorem removeFromConstraints_run (v : PVar) (pre rest : List (String × Constraint)) (m : LModel)
    (hm : m.constraints = pre ++ rest) (hn : (dkeys (pre ++ rest)).Nodup) :
    match constraintsWithout v rest with
    | .ok rest' => ((dkeys rest).forM (removeFromConstraint v)).run m =
        .ok ⟨⟩ { m with constraints := pre ++ rest' }
    | .error e => ∃ m', ((dkeys rest).forM (removeFromConstraint v)).run m = .error e m' := by
  induction rest generalizing pre m with
  | nil =>
    simp only [constraintsWithout, dkeys, List.map_nil, Py.run_forM_nil]
    rw [← hm]
  | cons p rest ih =>
    obtain ⟨l, c⟩ := p
    have hl : l ∉ dkeys pre := by
      simp only [dkeys, List.map_append, List.map_cons] at hn
      rw [List.nodup_append] at hn
      intro h
      exact hn.2.2 l h l (by simp) rfl
    have hget : dget m.constraints l = some c := by
      rw [hm, dget_append_right hl]
      simp [dget]
    have hstep : (removeFromConstraint v l).run m = match c.removeVariable v with
        | .error e => .error e m
        | .ok c' => .ok ⟨⟩ { m with constraints := pre ++ (l, c') :: rest } := by
      unfold removeFromConstraint
      py_simp
      rw [hget]
      simp only [Py.run_bind]
      cases c.removeVariable v with
      | error e => rfl
      | ok c' =>
        simp only [Py.run_liftE_ok, Py.run_set, hm, dset_append_right _ hl]
        simp [dset]
    simp only [constraintsWithout]
    cases hc : c.removeVariable v with
    | error e =>
      refine ⟨m, ?_⟩
      change ((l :: dkeys rest).forM (removeFromConstraint v)).run m = _
      rw [Py.run_forM_cons, hstep, hc]
    | ok c' =>
      have hrun : ((dkeys ((l, c) :: rest)).forM (removeFromConstraint v)).run m =
          ((dkeys rest).forM (removeFromConstraint v)).run
            { m with constraints := pre ++ (l, c') :: rest } := by
        change ((l :: dkeys rest).forM (removeFromConstraint v)).run m = _
        rw [Py.run_forM_cons, hstep, hc]
      have := ih (pre ++ [(l, c')]) { m with constraints := pre ++ (l, c') :: rest } (by simp)
        (by simpa [dkeys] using hn)
      rw [hrun]
      cases hd : constraintsWithout v rest with
      | error e => rw [hd] at this; exact this
      | ok d' => rw [hd] at this; simpa using this

/-- `delete_variable` on a rectangular model with distinct constraint labels. -/
theorem deleteVariable_run (v : PVar) (m : LModel) (hm : m.Rect) (hn : (dkeys m.constraints).Nodup) :
    match constraintsWithout v m.constraints with
    | .error e => ∃ m', (deleteVariable v).run m = .error e m'
    | .ok cs => (deleteVariable v).run m =
        ((touching v.label m.rows).forM fun n => removeInteraction .none (.str n)).run
          { m with deleted := sadd m.deleted v.label, constraints := cs } := by
  have h := removeFromConstraints_run v [] m.constraints { m with deleted := sadd m.deleted v.label } rfl hn
  unfold deleteVariable
  py_simp
  cases hc : constraintsWithout v m.constraints with
  | error e =>
    rw [hc] at h
    obtain ⟨m', h⟩ := h
    exact ⟨m', by simp only [h]⟩
  | ok cs =>
    rw [hc] at h
    simp only [h, List.nil_append]
    rw [selectByVariable_rect v (m := { m with deleted := sadd m.deleted v.label, constraints := cs })
      (rect_same (m := m) hm rfl rfl rfl rfl)]

/-- The outcome of a successful `delete_variable`. -/
theorem deleteVariable_ok {v : PVar} {m m' : LModel} (hu : m.names.Nodup)
    (h : (deleteVariable v).run m = .ok ⟨⟩ m') :
    ∃ cs, m' = { m with deleted := sadd m.deleted v.label, constraints := cs,
                        rows := m.rows.map fun r => if r.touches v.label then rmRow r else r } := by
  unfold deleteVariable at h
  py_simp at h
  obtain ⟨cs, hcs⟩ := removeFromConstraints_rel v (dkeys m.constraints)
    { m with deleted := sadd m.deleted v.label }
  cases hr : ((dkeys m.constraints).forM (removeFromConstraint v)).run
      { m with deleted := sadd m.deleted v.label } with
  | error e t => rw [hr] at h; cases h
  | ok u t =>
    rw [hr] at h hcs
    simp only [Res.state] at hcs h
    subst hcs
    rw [selectByVariable_run] at h
    by_cases hb : (m.attrCols.any fun c => decide (c.2.length ≠ m.rows.length)) = true
    · rw [if_pos hb] at h
      cases h
    rw [if_neg hb] at h
    simp only at h
    have hne := removeLoop_ne h
    rw [removeLoop_run _ { m with deleted := sadd m.deleted v.label, constraints := cs } hne (fun n hn => touching_sub n hn) hu] at h
    cases h
    exact ⟨cs, by simp only [rmNames_touching (l := v.label) hu]⟩
  
/-! ## `fix_variable` -/

/-- The variable that stays when `v` is fixed in a two-body interaction. -/
def fixKeep (v : PVar) : Inter → Option PVar
  | .lin _ => none
  | .quad a b => if a.label = v.label then some b else if b.label = v.label then some a else none

/-- The name of the interaction that replaces `s`. -/
def fixName (keep : PVar) (s : String) : String := keep.label ++ " (before fixed: " ++ s ++ ")"

theorem Coef.toPy_stores (c : Coef) : c.toPy.Stores c := by cases c <;> constructor

/-- One round of `fix_variable`. -/
theorem fixOne_run (now : ℚ) (v : PVar) (q : ℚ) (s : String) (m : LModel) {i : Nat} {r : Row}
    (hi : m.indexOf s = .ok i) (hr : m.rows[i]? = some r) :
    (fixOne now v q s).run m = match r.inter with
      | .lin _ => (removeInteraction .none (.str s)).run
          { m with offset := m.offset.add (((Coef.num (-1 * q)).mul r.coef).mul r.scale) }
      | .quad a b => match fixKeep v (.quad a b) with
        | none => .error .unboundLocalError m
        | some keep =>
          match (addInteraction now (.var keep) (.str (fixName keep s))
            (((Coef.num q).mul r.coef).mul r.scale).toPy (.num 1) .none .none).run m with
          | .ok _ m' => (removeInteraction .none (.str s)).run m'
          | .error e m' => .error e m' := by
  unfold fixOne
  rw [Py.run_bind, Py.run_get]
  simp only
  rw [Py.run_bind, Py.run_liftE, hi]
  simp only [hr]
  cases r.inter with
  | lin w => rfl
  | quad a b =>
    simp only [fixKeep]
    by_cases h1 : a.label = v.label
    · simp only [h1, if_true, Py.run_bind, Py.run_pure, fixName]
      generalize (addInteraction _ _ _ _ _ _ _).run m = x
      cases x <;> rfl
    · by_cases h2 : b.label = v.label
      · simp only [h1, h2, if_true, if_false, Py.run_bind, Py.run_pure, fixName]
        generalize (addInteraction _ _ _ _ _ _ _).run m = x
        cases x <;> rfl
      · simp only [h1, h2, if_false]
        rfl

theorem sum_map_modify (f : Row → ℚ) (g : Row → Row) (rows : List Row) (i : Nat) (r : Row)
    (h : rows[i]? = some r) : ((rows.modify i g).map f).sum = (rows.map f).sum - f r + f (g r) := by
  induction rows generalizing i with
  | nil => simp at h
  | cons a rows ih =>
    cases i with
    | zero =>
      simp only [List.getElem?_cons_zero, Option.some.injEq] at h
      subst h
      simp only [List.modify_zero_cons, List.map_cons, List.sum_cons]
      ring
    | succ i =>
      simp only [List.getElem?_cons_succ] at h
      simp only [List.modify_succ_cons, List.map_cons, List.sum_cons, ih i h]
      ring

/-- Effect on the energy of removing an active interaction. -/
theorem remove_energy {m m' : LModel} {n : String} {i : Nat} {r : Row} (hi : m.indexOf n = .ok i)
    (hr : m.rows[i]? = some r) (h : (removeInteraction .none (.str n)).run m = .ok ⟨⟩ m') (ρ : PEnv) (σ : Assign) :
    m'.energy ρ σ = m.energy ρ σ + r.term ρ σ ∧ m'.rows = m.rows.modify i rmRow ∧
      m'.offset = m.offset ∧ n ≠ "" := by
  have hne : n ≠ "" := by
    rintro rfl
    rw [removeEmpty_run] at h
    cases h
  rw [removeByName_run n hne, hi] at h
  cases h
  refine ⟨?_, rfl, rfl, hne⟩
  simp only [LModel.energy]
  rw [sum_map_modify _ _ _ _ _ hr]
  have : Row.term ρ σ (rmRow r) = 0 := by simp [Row.term, rmRow]
  rw [this]
  ring

theorem touches_lin {r : Row} {l : String} {w : PVar} (hi : r.inter = .lin w) (h : r.touches l = true) :
    w.label = l := by
  simpa [Row.touches, hi, Inter.key0, Inter.key1] using h

/-- The name of the interaction that replaces a two-body interaction. -/
def newName (v : PVar) (r : Row) : Option String := (fixKeep v r.inter).map fun k => fixName k r.name

/-- The energy after one round of `fix_variable` on an interaction. A removed one comes back. -/
theorem fixOne_ok {now : ℚ} {v : PVar} {q : ℚ} {s : String} {m m' : LModel} {i : Nat} {r : Row}
    (hu : m.names.Nodup) (hi : m.indexOf s = .ok i) (hr : m.rows[i]? = some r)
    (ht : r.touches v.label = true) (hord : r.inter.Ordered)
    (h : (fixOne now v q s).run m = .ok ⟨⟩ m') :
    (∀ ρ σ, m'.energy ρ σ = m.energy ρ σ + r.term ρ σ - r.full ρ (σ.subst v.label q)) ∧
    m'.names = m.names ++ (newName v r).toList ∧ m'.names.Nodup ∧ (∀ r' ∈ m.rows, r'.name ≠ s → r' ∈ m'.rows) := by
  obtain ⟨hlt, hnm⟩ := indexOf_ok hi
  rw [fixOne_run now v q s m hi hr] at h
  cases hin : r.inter with
  | lin w =>
    rw [hin] at h
    simp only at h
    have hw := touches_lin hin ht
    have hi' : ({ m with offset := m.offset.add (((Coef.num (-1 * q)).mul r.coef).mul r.scale) } : LModel).indexOf s
        = .ok i := hi
    refine ⟨fun ρ σ => ?_, ?_, ?_, ?_⟩
    · obtain ⟨he, _⟩ := remove_energy hi' hr h ρ σ
      have hterm : ∀ τ : Assign, r.full ρ τ = r.coef.eval ρ * r.scale.eval ρ * τ v.label := by
        intro τ
        simp [Row.full, hin, Inter.value, hw]
      have hv : (σ.subst v.label q) v.label = q := by simp [Assign.subst]
      rw [he, hterm, hv]
      simp only [LModel.energy, Coef.eval_add, Coef.eval_mul]
      simp only [Coef.eval]
      ring
    · obtain ⟨_, hrows, _⟩ := remove_energy hi' hr h (fun _ => 0) (fun _ => 0)
      unfold LModel.names
      rw [hrows, map_name_modify _ _ rmRow (fun _ => rfl)]
      simp [newName, hin, fixKeep]
    · obtain ⟨_, hrows, _⟩ := remove_energy hi' hr h (fun _ => 0) (fun _ => 0)
      unfold LModel.names
      rw [hrows, map_name_modify _ _ rmRow (fun _ => rfl)]
      exact hu
    · obtain ⟨_, hrows, _⟩ := remove_energy hi' hr h (fun _ => 0) (fun _ => 0)
      intro r' hr' hne
      rw [hrows, modify_eq_map_of_unique rmRow hu hlt hnm]
      exact List.mem_map.mpr ⟨r', hr', by simp [hne]⟩
  | quad a b =>
    rw [hin] at h hord
    simp only at h
    cases hk : fixKeep v (.quad a b) with
    | none => rw [hk] at h; cases h
    | some keep =>
      rw [hk] at h
      simp only at h
      split at h
      · rename_i m₁ hadd
        rw [addInteraction_run] at hadd
        split at hadd
        · cases hadd
        rename_i p hp
        obtain ⟨row, ats⟩ := p
        obtain ⟨hd, hname, hnew, hc, hs, _, _, _, _, hrm', _⟩ := addChecks_ok_iff.mp hp
        obtain ⟨cols, cats, rfl⟩ := addTail_ok hadd
        have hrow : row.inter = .lin keep := by
          have := getInfo_ok_iff.mpr hd
          simp only [getInfo] at this
          injection this with this
          exact this.symm
        have hi' : ∀ {k : LModel}, k.rows = m.rows ++ [row] → k.indexOf s = .ok i := indexOf_append hi
        have hr' : (m.rows ++ [row])[i]? = some r := by
          rw [List.getElem?_append_left hlt]; exact hr
        have hu' : ((m.rows ++ [row]).map (·.name)).Nodup := by
          rw [List.map_append, List.nodup_append]
          refine ⟨hu, by simp, ?_⟩
          rintro x hx y hy rfl
          simp only [List.map_cons, List.map_nil, List.mem_singleton] at hy
          exact hnew (hy ▸ hx)
        refine ⟨fun ρ σ => ?_, ?_, ?_, ?_⟩
        · obtain ⟨he, _⟩ := remove_energy (hi' rfl) hr' h ρ σ
          rw [he]
          have hcoef : row.coef.eval ρ = q * r.coef.eval ρ * r.scale.eval ρ := by
            rw [← Stores_eval hc, Stores_eval (Coef.toPy_stores _), Coef.eval_mul, Coef.eval_mul]
            rfl
          have hscale : row.scale.eval ρ = 1 := by
            rw [← Stores_eval hs]
            rfl
          have hval : keep.label ≠ v.label ∧ ∀ τ : Assign, (Inter.quad a b).value τ =
              τ v.label * τ keep.label := by
            simp only [fixKeep] at hk
            simp only [Inter.Ordered] at hord
            split at hk
            · rename_i h1
              cases hk
              refine ⟨by rw [← h1]; exact (ne_of_lt hord).symm, fun τ => by rw [Inter.value, h1]⟩
            · split at hk
              · rename_i h1 h2
                cases hk
                exact ⟨h1, fun τ => by rw [Inter.value, h2, mul_comm]⟩
              · cases hk
          simp only [LModel.energy, List.map_append, List.sum_append, List.map_cons, List.map_nil,
            List.sum_cons, List.sum_nil, Row.full, Row.term, hrm', hrow, hin, hval.2, hcoef, hscale]
          simp only [Bool.false_eq_true, if_false, Inter.value, Assign.subst, if_true, hval.1]
          ring
        · obtain ⟨_, hrows, _⟩ := remove_energy (hi' rfl) hr' h (fun _ => 0) (fun _ => 0)
          unfold LModel.names
          rw [hrows, map_name_modify _ _ rmRow (fun _ => rfl)]
          have hnm' : row.name = fixName keep s := by
            generalize hgn : fixName keep s = gn at hname
            have hgne : gn ≠ "" := by
              intro he
              have := congrArg String.length (hgn.trans he)
              simp [fixName, String.length_append] at this
            generalize row.inter = ri at hname
            generalize row.name = rn at hname
            cases hname with
            | given _ _ _ => rfl
            | lin _ => exact absurd rfl hgne
            | quad _ _ => exact absurd rfl hgne
          have hrn : r.name = s := by
            rw [List.getElem?_eq_getElem hlt] at hr
            injection hr with hr
            rw [← hr]; exact hnm
          simp [newName, hin, hk, hnm', hrn]
        · obtain ⟨_, hrows, _⟩ := remove_energy (hi' rfl) hr' h (fun _ => 0) (fun _ => 0)
          unfold LModel.names
          rw [hrows]
          rw [map_name_modify _ _ rmRow (fun _ => rfl)]
          exact hu'
        · obtain ⟨_, hrows, _⟩ := remove_energy (hi' rfl) hr' h (fun _ => 0) (fun _ => 0)
          intro r' hr'' hne
          have hlt' : i < (m.rows ++ [row]).length := by simp only [List.length_append]; omega
          have hnm' : (m.rows ++ [row])[i].name = s := by
            rw [List.getElem_append_left hlt]; exact hnm
          rw [hrows]
          rw [modify_eq_map_of_unique rmRow hu' hlt' hnm']
          exact List.mem_map.mpr ⟨r', List.mem_append_left _ hr'', by simp [hne]⟩
      · cases h

/-- The loop of `fix_variable` over interactions; removed ones come back. -/
theorem fixLoop_ok {clk : Nat → ℚ} {v : PVar} {q : ℚ} (sel : List Row) (k : Nat) {m m' : LModel}
    (hu : m.names.Nodup) (hsel : ∀ r ∈ sel, r ∈ m.rows ∧ r.touches v.label = true ∧ r.inter.Ordered) (hn : (sel.map (·.name)).Nodup)
    (h : (((sel.map (·.name)).zipIdx k).forM fun p => fixOne (clk p.2) v q p.1).run m = .ok ⟨⟩ m')
    (ρ : PEnv) (σ : Assign) :
    m'.energy ρ σ = m.energy ρ σ + (sel.map (Row.term ρ σ)).sum
      - (sel.map (Row.full ρ (σ.subst v.label q))).sum ∧
    m'.names = m.names ++ sel.filterMap (newName v) ∧ m'.names.Nodup := by
  induction sel generalizing k m with
  | nil =>
    simp only [List.map_nil, List.zipIdx_nil, Py.run_forM_nil] at h
    cases h
    simp [hu]
  | cons r sel ih =>
    simp only [List.map_cons, List.zipIdx_cons, Py.run_forM_cons] at h
    cases hf : (fixOne (clk k) v q r.name).run m with
    | error e t => rw [hf] at h; cases h
    | ok u m₁ =>
      rw [hf] at h
      simp only at h
      obtain ⟨hmem, ht, ho⟩ := hsel r (by simp)
      obtain ⟨i, hi⟩ := indexOf_mem (m := m) (n := r.name) (List.mem_map.mpr ⟨r, hmem, rfl⟩)
      obtain ⟨hlt, hnm⟩ := indexOf_ok hi
      have hr : m.rows[i]? = some r := by
        rw [List.getElem?_eq_getElem hlt]
        congr 1
        exact List.inj_on_of_nodup_map hu (List.getElem_mem hlt) hmem hnm
      obtain ⟨he, hnm₁, hu₁, hkeep⟩ := fixOne_ok hu hi hr ht ho hf
      have hn' := List.nodup_cons.mp hn
      obtain ⟨he₂, hnm₂, hu₂⟩ := ih (k + 1) hu₁ (fun r' hr' => by
        obtain ⟨h1, h2⟩ := hsel r' (by simp [hr'])
        refine ⟨hkeep r' h1 ?_, h2⟩
        intro hc
        exact hn'.1 (List.mem_map.mpr ⟨r', hr', hc⟩)) hn'.2 h
      refine ⟨?_, ?_, hu₂⟩
      · rw [he₂, he]
        simp only [List.map_cons, List.sum_cons]
        ring
      · rw [hnm₂, hnm₁, List.append_assoc]
        congr 1
        cases hnn : newName v r <;> simp [hnn]

/-! ## When `fix_variable` succeeds -/

theorem fixName_ne (k : PVar) (s : String) : fixName k s ≠ "" := by
  intro h
  have := congrArg String.length h
  simp [fixName, String.length_append] at this

theorem fixKeep_some {v a b : PVar} {r : Row} (hi : r.inter = .quad a b) (ht : r.touches v.label = true) :
    ∃ k, fixKeep v r.inter = some k := by
  rw [hi]
  simp only [Row.touches, hi, Inter.key0, Inter.key1, Bool.or_eq_true, decide_eq_true_eq, Option.some.injEq] at ht
  simp only [fixKeep]
  by_cases h : a.label = v.label
  · exact ⟨b, if_pos h⟩
  · rw [if_neg h]
    exact ⟨a, if_pos (ht.resolve_left h)⟩

theorem mem_modify_append {rows : List Row} {x : Row} {i : Nat} {s : String}
    (hu : ((rows ++ [x]).map (·.name)).Nodup) (hlt : i < rows.length) (hnm : rows[i].name = s) {r' : Row}
    (hr : r' ∈ rows) (hn : r'.name ≠ s) : r' ∈ (rows ++ [x]).modify i rmRow := by
  have hlt' : i < (rows ++ [x]).length := by simp only [List.length_append]; omega
  have hnm' : (rows ++ [x])[i].name = s := by
    rw [List.getElem_append_left hlt]; exact hnm
  rw [modify_eq_map_of_unique rmRow hu hlt' hnm']
  exact List.mem_map.mpr ⟨r', List.mem_append_left _ hr, by simp [hn]⟩

theorem fixOne_succeeds {now : ℚ} {v : PVar} {q : ℚ} {m : LModel} {r : Row} (hm : m.Rect)
    (hu : m.names.Nodup) (hr : r ∈ m.rows) (ht : r.touches v.label = true) (hne : r.name ≠ "")
    (hnew : ∀ n ∈ newName v r, n ∉ m.names) :
    ∃ m₁, (fixOne now v q r.name).run m = .ok ⟨⟩ m₁ ∧ m₁.Rect ∧
      m₁.names = m.names ++ (newName v r).toList ∧ ∀ r' ∈ m.rows, r'.name ≠ r.name → r' ∈ m₁.rows := by
  obtain ⟨i, hi⟩ := indexOf_mem (m := m) (n := r.name) (List.mem_map.mpr ⟨r, hr, rfl⟩)
  obtain ⟨hlt, hnm⟩ := indexOf_ok hi
  have hri : m.rows[i]? = some r := by
    rw [List.getElem?_eq_getElem hlt]
    congr 1
    exact List.inj_on_of_nodup_map hu (List.getElem_mem hlt) hr hnm
  rw [fixOne_run now v q r.name m hi hri]
  cases hin : r.inter with
  | lin w =>
    simp only
    rw [removeByName_run _ hne]
    have hi' : ({ m with offset := m.offset.add (((Coef.num (-1 * q)).mul r.coef).mul r.scale) } : LModel).indexOf
        r.name = .ok i := hi
    rw [hi']
    refine ⟨_, rfl, rect_same hm rfl (by simp) rfl rfl, ?_, ?_⟩
    · simp only [LModel.names, newName, hin, fixKeep, Option.map_none, Option.toList_none, List.append_nil]
      rw [map_name_modify _ _ rmRow (fun _ => rfl)]
    · intro r' hr' hn
      simp only
      rw [modify_eq_map_of_unique rmRow hu hlt hnm]
      exact List.mem_map.mpr ⟨r', hr', by simp [hn]⟩
  | quad a b =>
    obtain ⟨k, hk⟩ := fixKeep_some hin ht
    have hnn : newName v r = some (fixName k r.name) := by simp [newName, hk]
    rw [hin] at hk
    simp only [hk]
    have hchk := addChecks_ok_iff (now := now) (m := m) (target := .var k)
      (name := .str (fixName k r.name)) (coefficient := (((Coef.num q).mul r.coef).mul r.scale).toPy)
      (scale := .num 1) (attributes := .none) (timestamp := .none)
      (row := ⟨fixName k r.name, .lin k, ((Coef.num q).mul r.coef).mul r.scale, .num 1,
        some (PyTs.at now .none), true, false⟩) (ats := PyAttrs.none.entries)
    have hchk := hchk.mpr ⟨.var k, .given _ _ (fixName_ne _ _), hnew _ (by simp [hnn]), Coef.toPy_stores _,
      .num 1, by simp, by simp, rfl, rfl, rfl, rfl⟩
    rw [addInteraction_run, hchk]
    simp only
    obtain ⟨cols, cats, hrun, hrect, _⟩ := addTail_rect (⟨fixName k r.name, .lin k,
      ((Coef.num q).mul r.coef).mul r.scale, .num 1, some (PyTs.at now .none), true, false⟩ : Row)
      PyAttrs.none.entries m hm
    rw [hrun]
    simp only
    rw [removeByName_run _ hne]
    rw [indexOf_append (rows := [⟨fixName k r.name, .lin k,
      ((Coef.num q).mul r.coef).mul r.scale, .num 1, some (PyTs.at now .none), true, false⟩]) hi rfl]
    refine ⟨_, rfl, rect_same hrect rfl (by simp) rfl rfl, ?_, ?_⟩
    · simp only [LModel.names]
      rw [map_name_modify _ _ rmRow (fun _ => rfl), hnn]
      simp
    · intro r' hr' hn
      have hu' : ((m.rows ++ [(⟨fixName k r.name, .lin k,
          ((Coef.num q).mul r.coef).mul r.scale, .num 1, some (PyTs.at now .none), true, false⟩ : Row)]).map
          (·.name)).Nodup := by
        rw [List.map_append, List.nodup_append]
        refine ⟨hu, by simp, ?_⟩
        rintro x hx y hy rfl
        simp only [List.map_cons, List.map_nil, List.mem_singleton] at hy
        exact hnew _ (by simp [hnn]) (hy ▸ hx)
      exact mem_modify_append hu' hlt hnm hr' hn

theorem fixLoop_succeeds {clk : Nat → ℚ} {v : PVar} {q : ℚ} (sel : List Row) (k : Nat) {m : LModel}
    (hm : m.Rect) (hsel : ∀ r ∈ sel, r ∈ m.rows ∧ r.touches v.label = true ∧ r.name ≠ "")
    (hn : (sel.map (·.name)).Nodup) (hu : (m.names ++ sel.filterMap (newName v)).Nodup) :
    ∃ m', (((sel.map (·.name)).zipIdx k).forM fun p => fixOne (clk p.2) v q p.1).run m = .ok ⟨⟩ m' := by
  induction sel generalizing k m with
  | nil => exact ⟨m, rfl⟩
  | cons r sel ih =>
    obtain ⟨hmem, ht, hne⟩ := hsel r (by simp)
    have hu0 := (List.nodup_append.mp hu).1
    have hsplit : (r :: sel).filterMap (newName v) = (newName v r).toList ++ sel.filterMap (newName v) := by
      cases h : newName v r <;> simp [h]
    rw [hsplit, ← List.append_assoc] at hu
    have hfresh : ∀ n ∈ newName v r, n ∉ m.names := by
      intro n hn' hc
      have := (List.nodup_append.mp (List.nodup_append.mp hu).1).2.2 n hc n (by
        rw [Option.mem_def] at hn'; simp [hn'])
      exact this rfl
    obtain ⟨m₁, hrun, hrect, hnames, hkeep⟩ := fixOne_succeeds (now := clk k) (q := q) hm hu0 hmem ht hne hfresh
    have hn' := List.nodup_cons.mp hn
    obtain ⟨m', h⟩ := ih (k + 1) hrect (fun r' hr' => by
      obtain ⟨h1, h2⟩ := hsel r' (by simp [hr'])
      refine ⟨hkeep r' h1 ?_, h2⟩
      intro hc
      exact hn'.1 (List.mem_map.mpr ⟨r', hr', hc⟩)) hn'.2 (by rw [hnames]; exact hu)
    refine ⟨m', ?_⟩
    simp only [List.map_cons, List.zipIdx_cons, Py.run_forM_cons]
    rw [hrun]
    exact h

end Sawatabi
