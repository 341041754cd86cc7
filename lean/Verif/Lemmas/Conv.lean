import Verif.Lemmas.Group

/-!
# Lemmas about to_ising and to_qubo
-/

namespace Sawatabi

/-! ## Updating one coefficient by name -/

/-- The update that a conversion applies to an interaction. -/
def setCoef (env : Env) (q : ℚ) (r : Row) : Row := updRow (some q) none (some env.importTime) r

theorem isRemoved_of {m : LModel} {n : String} {i : Nat} (hi : m.indexOf n = .ok i) (h : i < m.rows.length) :
    m.isRemoved n = .ok m.rows[i].removed := by
  unfold LModel.isRemoved
  rw [hi]
  simp [bind, Except.bind, pure, Except.pure, List.getElem?_eq_getElem h]

theorem checkNum?_toPy (c : Coef) : checkNum? (some c.toPy) = match c with
    | .num q => .ok (some q)
    | .expr _ => .error .typeError := by
  cases c <;> rfl

/-- Updating by the name of an interaction of the model. -/
theorem updateCoef_run (env : Env) {m : LModel} {r : Row} (hu : m.names.Nodup) (hr : r ∈ m.rows)
    (c : Coef) : (updateCoef env r.name c).run m =
      if r.name = "" then .error .valueError m else
      match c with
      | .expr _ => .error .typeError m
      | .num q => if r.removed then .error .valueError m
        else .ok ⟨⟩ { m with rows := m.rows.map fun x => if x = r then setCoef env q x else x } := by
  obtain ⟨i, hi⟩ := indexOf_mem (m := m) (n := r.name) (List.mem_map.mpr ⟨r, hr, rfl⟩)
  obtain ⟨hlt, hnm⟩ := indexOf_ok hi
  have hri : m.rows[i] = r := List.inj_on_of_nodup_map hu (List.getElem_mem hlt) hr hnm
  unfold updateCoef
  rw [updateInteraction_run]
  by_cases hne : r.name = ""
  · rw [if_pos hne]
    have : updateChecks env.importTime m .none (.str r.name) (some c.toPy) none .none none = .error .valueError := by
      simp [updateChecks, hne, PyName.truthy, PyTarget.truthy]
    rw [this]
  · rw [if_neg hne]
    have ht : (PyName.str r.name).truthy = true := by simp [PyName.truthy, hne]
    cases c with
    | expr e =>
      have : updateChecks env.importTime m .none (.str r.name) (some (Coef.expr e).toPy) none .none none =
          .error .typeError := by
        simp [updateChecks, ht, checkNum?_toPy, PyTarget.truthy]
      rw [this]
    | num q =>
      have hh : m.hasName r.name = true := (hasName_iff _ _).mpr (List.mem_map.mpr ⟨r, hr, rfl⟩)
      simp only
      by_cases hrm : r.removed = true
      · rw [if_pos hrm]
        have : updateChecks env.importTime m .none (.str r.name) (some (Coef.num q).toPy) none .none none =
            .error .valueError := by
          simp [updateChecks, ht, Coef.toPy, PyTarget.truthy, optInfo, updateName, hh,
            isRemoved_of hi hlt, hri, hrm, checkNum?]
        rw [this]
      · rw [if_neg hrm]
        have : updateChecks env.importTime m .none (.str r.name) (some (Coef.num q).toPy) none .none none =
            .ok (.write i (some q) none [] (some env.importTime)) := by
          simp [updateChecks, ht, Coef.toPy, PyTarget.truthy, optInfo, updateName, hh,
            isRemoved_of hi hlt, hri, hrm, checkNum?, hi, PyAttrs.entries, PyTs.stored]
        rw [this]
        simp only
        rw [writeRow_run]
        simp only [Py.run_forM_nil, modify_modify]
        congr 2
        change m.rows.modify i (setCoef env q) = _
        rw [modify_eq_map_of_unique _ hu hlt hnm]
        apply List.map_congr_left
        intro x hx
        by_cases hxr : x = r
        · subst hxr; simp
        · rw [if_neg hxr, if_neg]
          intro hc
          exact hxr (List.inj_on_of_nodup_map hu hx hr hc)

theorem map_ite_names {rows : List Row} {r : Row} {u : Row → Row} (h : ∀ x, (u x).name = x.name) :
    (rows.map fun x => if x = r then u x else x).map (·.name) = rows.map (·.name) := by
  rw [List.map_map]
  apply List.map_congr_left
  intro x _
  simp only [Function.comp]
  split
  · exact h x
  · rfl

/-! ## The loops, for both directions -/

/-- `toIsingLin` and `toQuboLin`. -/
def genLin (env : Env) (f o : Coef → Coef) (h : Row) : Py LModel Unit := do
  updateCoef env h.name (f h.coef)
  modify fun m => { m with offset := m.offset.add (o h.coef) }

/-- `toIsingQuad` and `toQuboQuad`. -/
def genQuad (env : Env) (f g o : Coef → Coef) (clk : Nat → ℚ) (J : Row) : Py LModel Unit := do
  match J.inter with
  | .lin _ => throw .typeError
  | .quad v w =>
    updateCoef env J.name (f J.coef)
    addInteraction (clk 1) (.var v) (.str (addedName env v.label J.name (clk 0)))
      (g J.coef).toPy (.num 1) .none .none
    addInteraction (clk 3) (.var w) (.str (addedName env w.label J.name (clk 2)))
      (g J.coef).toPy (.num 1) .none .none
    modify fun m => { m with offset := m.offset.add (o J.coef) }

/-- `to_ising` and `to_qubo` on a model of the other type. -/
def genConv (env : Env) (mt : MType) (f o f₂ g₂ o₂ : Coef → Coef) (clk : Nat → ℚ) : Py LModel Unit := do
  modify fun m => { m with mtype := mt }
  updateVariablesType
  let hs ← selectBody 1
  hs.forM (genLin env f o)
  let js ← selectBody 2
  js.zipIdx.forM fun p => genQuad env f₂ g₂ o₂ (fun i => clk (4 * p.2 + i)) p.1

theorem toIsing_run (env : Env) (clk : Nat → ℚ) (m : LModel) :
    (toIsing env clk).run m = if m.mtype = .ising then .ok ⟨⟩ m else
      (genConv env .ising (·.mul (.num (1/2))) (·.mul (.num (1/2))) (·.mul (.num (1/4))) (·.mul (.num (1/4)))
        (·.mul (.num (1/4))) clk).run m := by
  unfold toIsing
  rw [Py.run_bind, Py.run_get]
  simp only [ne_eq, ite_not]
  split
  · rfl
  · rfl

theorem toQubo_run (env : Env) (clk : Nat → ℚ) (m : LModel) :
    (toQubo env clk).run m = if m.mtype = .qubo then .ok ⟨⟩ m else
      (genConv env .qubo (·.mul (.num 2)) (·.mul (.num (-1))) (·.mul (.num 4)) (·.mul (.num (-2)))
        id clk).run m := by
  unfold toQubo
  rw [Py.run_bind, Py.run_get]
  simp only [ne_eq, ite_not]
  split
  · rfl
  · rfl

/-- An interaction whose coefficient went through `f`. -/
def withCoef (env : Env) (f : Coef → Coef) (r : Row) : Row :=
  { r with coef := f r.coef, timestamp := some env.importTime, dirty := true }

theorem setCoef_eq {env : Env} {f : Coef → Coef} {r : Row} {q : ℚ} (h : f r.coef = .num q) :
    setCoef env q r = withCoef env f r := by
  unfold setCoef updRow withCoef
  rw [h]

theorem Coef.isNum_iff {c : Coef} : c.isNum = true ↔ ∃ q, c = .num q := by cases c <;> simp [Coef.isNum]

theorem genLin_ok {env : Env} {f o : Coef → Coef} {h : Row} {m m' : LModel} (hu : m.names.Nodup)
    (hh : h ∈ m.rows) (hok : (genLin env f o h).run m = .ok ⟨⟩ m') :
    m' = { m with rows := m.rows.map (fun x => if x = h then withCoef env f x else x)
                  offset := m.offset.add (o h.coef) } ∧
    h.name ≠ "" ∧ h.removed = false ∧ (f h.coef).isNum = true := by
  unfold genLin at hok
  rw [Py.run_bind, updateCoef_run env hu hh] at hok
  by_cases hne : h.name = ""
  · rw [if_pos hne] at hok; cases hok
  rw [if_neg hne] at hok
  cases hf : f h.coef with
  | expr e => rw [hf] at hok; cases hok
  | num q =>
    rw [hf] at hok
    simp only at hok
    by_cases hrm : h.removed = true
    · rw [if_pos hrm] at hok; cases hok
    rw [if_neg hrm] at hok
    cases hok
    refine ⟨?_, hne, by simpa using hrm, rfl⟩
    have : (m.rows.map fun x => if x = h then setCoef env q x else x) =
        m.rows.map fun x => if x = h then withCoef env f x else x := ?_
    · exact congrArg (fun l => { m with rows := l, offset := m.offset.add (o h.coef) }) this
    apply List.map_congr_left
    intro x _
    by_cases hx : x = h
    · rw [if_pos hx, if_pos hx, hx, setCoef_eq hf]
    · rw [if_neg hx, if_neg hx]

theorem genLin_succeeds {env : Env} {f o : Coef → Coef} {h : Row} {m : LModel} (hu : m.names.Nodup)
    (hh : h ∈ m.rows) (hne : h.name ≠ "") (hrm : h.removed = false) (hf : (f h.coef).isNum = true) :
    ∃ m', (genLin env f o h).run m = .ok ⟨⟩ m' := by
  obtain ⟨q, hq⟩ := Coef.isNum_iff.mp hf
  unfold genLin
  rw [Py.run_bind, updateCoef_run env hu hh, if_neg hne, hq]
  simp only [hrm]
  exact ⟨_, rfl⟩

/-- Mapping the rows of a list, then those of another with other names. -/
theorem map_mem_cons {rows : List Row} {h : Row} {hs : List Row} {u : Row → Row} (hu : ∀ x, (u x).name = x.name)
    (hn : h.name ∉ hs.map (·.name)) :
    (rows.map fun x => if x = h then u x else x).map (fun x => if x ∈ hs then u x else x) =
      rows.map fun x => if x ∈ h :: hs then u x else x := by
  rw [List.map_map]
  apply List.map_congr_left
  intro x _
  simp only [Function.comp, List.mem_cons]
  by_cases hx : x = h
  · have : u x ∉ hs := by
      intro hc
      apply hn
      rw [List.mem_map]
      exact ⟨_, hc, by rw [hu, hx]⟩
    simp [hx] at this ⊢
    simp [this]
  · simp [hx]

theorem withCoef_name (env : Env) (f : Coef → Coef) (x : Row) : (withCoef env f x).name = x.name := rfl

/-- The loop over the linear interactions. -/
theorem genLin_loop_ok {env : Env} {f o : Coef → Coef} (hs : List Row) {m m' : LModel} (hu : m.names.Nodup)
    (hh : ∀ h ∈ hs, h ∈ m.rows) (hn : (hs.map (·.name)).Nodup)
    (hok : (hs.forM (genLin env f o)).run m = .ok ⟨⟩ m') :
    m' = { m with rows := m.rows.map (fun x => if x ∈ hs then withCoef env f x else x)
                  offset := hs.foldl (fun a h => a.add (o h.coef)) m.offset } ∧
    ∀ h ∈ hs, h.name ≠ "" ∧ (f h.coef).isNum = true := by
  induction hs generalizing m with
  | nil =>
    rw [Py.run_forM_nil] at hok
    cases hok
    simp
  | cons h hs ih =>
    rw [Py.run_forM_cons] at hok
    cases hr : (genLin env f o h).run m with
    | error e t => rw [hr] at hok; cases hok
    | ok u m₁ =>
      rw [hr] at hok
      obtain ⟨rfl, hne, hrm, hnum⟩ := genLin_ok hu (hh h (by simp)) hr
      have hn' := List.nodup_cons.mp hn
      have hnames := map_ite_names (rows := m.rows) (r := h) (withCoef_name env f)
      obtain ⟨h1, h2⟩ := ih (by simp only [LModel.names, hnames]; exact hu)
        (by
          intro x hx
          have hne : x ≠ h := by
            rintro rfl
            exact hn'.1 (List.mem_map.mpr ⟨x, hx, rfl⟩)
          exact List.mem_map.mpr ⟨x, hh x (by simp [hx]), by simp [hne]⟩) hn'.2 hok
      refine ⟨?_, ?_⟩
      · rw [h1]
        simp only [List.foldl_cons]
        rw [map_mem_cons (withCoef_name env f) hn'.1]
      · intro x hx
        rcases List.mem_cons.mp hx with rfl | hx
        · exact ⟨hne, hnum⟩
        · exact h2 x hx

theorem genLin_loop_succeeds {env : Env} {f o : Coef → Coef} (hs : List Row) {m : LModel} (hu : m.names.Nodup)
    (hh : ∀ h ∈ hs, h ∈ m.rows ∧ h.name ≠ "" ∧ h.removed = false ∧ (f h.coef).isNum = true)
    (hn : (hs.map (·.name)).Nodup) : ∃ m', (hs.forM (genLin env f o)).run m = .ok ⟨⟩ m' := by
  induction hs generalizing m with
  | nil => exact ⟨m, rfl⟩
  | cons h hs ih =>
    obtain ⟨h1, h2, h3, h4⟩ := hh h (by simp)
    obtain ⟨m₁, hr⟩ := genLin_succeeds (env := env) (o := o) hu h1 h2 h3 h4
    obtain ⟨hm₁, _⟩ := genLin_ok hu h1 hr
    have hn' := List.nodup_cons.mp hn
    have hnames := map_ite_names (rows := m.rows) (r := h) (withCoef_name env f)
    obtain ⟨m', h'⟩ := ih (m := m₁) (by rw [hm₁]; simp only [LModel.names, hnames]; exact hu)
      (by
        intro x hx
        have hne : x ≠ h := by
          rintro rfl
          exact hn'.1 (List.mem_map.mpr ⟨x, hx, rfl⟩)
        obtain ⟨g1, g2⟩ := hh x (by simp [hx])
        refine ⟨?_, g2⟩
        rw [hm₁]
        exact List.mem_map.mpr ⟨x, g1, by simp [hne]⟩) hn'.2
    exact ⟨m', by rw [Py.run_forM_cons, hr]; exact h'⟩

/-- The rows added for a quadratic interaction. -/
structure AddedRow (c : Coef) (v : PVar) (n : String) (r : Row) : Prop where
  name : r.name = n
  inter : r.inter = .lin v
  coef : r.coef = c
  scale : r.scale = .num 1
  removed : r.removed = false

theorem Stores_toPy {c d : Coef} (h : c.toPy.Stores d) : d = c := by
  cases c <;> cases h <;> rfl

/-- Adding a linear interaction under a non-empty name. -/
theorem addLin_ok {now : ℚ} {v : PVar} {n : String} (hne : n ≠ "") {c : Coef} {m m' : LModel}
    (h : (addInteraction now (.var v) (.str n) c.toPy (.num 1) .none .none).run m = .ok ⟨⟩ m') :
    ∃ r cols ats, AddedRow c v n r ∧ n ∉ m.names ∧
      m' = { m with rows := m.rows ++ [r], attrCols := cols, attrs := ats, length := m.length + 1 } := by
  rw [addInteraction_run] at h
  split at h
  · cases h
  rename_i p hp
  obtain ⟨row, ats⟩ := p
  obtain ⟨hd, hnm, hnew, hc, hs, _, _, _, _, hrm, _⟩ := addChecks_ok_iff.mp hp
  obtain ⟨cols, cats, rfl⟩ := addTail_ok h
  have h1 : row.inter = .lin v := by
    have := getInfo_ok_iff.mpr hd
    simp only [getInfo] at this
    injection this with this
    exact this.symm
  have h2 : row.name = n := by
    generalize hn : row.name = n' at hnm
    generalize row.inter = i at hnm
    cases hnm with
    | given => rfl
    | lin => exact absurd rfl hne
    | quad => exact absurd rfl hne
  have h3 : row.coef = c := Stores_toPy hc
  have h4 : row.scale = .num 1 := by
    generalize row.scale = s at hs
    cases hs
    rfl
  exact ⟨row, cols, cats, ⟨h2, h1, h3, h4, hrm⟩, h2 ▸ hnew, rfl⟩

theorem addLin_succeeds (now : ℚ) (v : PVar) {n : String} (hne : n ≠ "") (c : Coef) {m : LModel} (hm : m.Rect)
    (hnew : n ∉ m.names) :
    ∃ m', (addInteraction now (.var v) (.str n) c.toPy (.num 1) .none .none).run m = .ok ⟨⟩ m' := by
  have hchk := addChecks_ok_iff (now := now) (m := m) (target := .var v)
    (name := .str n) (coefficient := c.toPy) (scale := .num 1) (attributes := .none) (timestamp := .none)
    (row := ⟨n, .lin v, c, .num 1, some (PyTs.at now .none), true, false⟩) (ats := PyAttrs.none.entries)
  have hchk := hchk.mpr ⟨.var v, .given _ _ hne, hnew, Coef.toPy_stores _, .num 1, by simp, by simp, rfl, rfl, rfl, rfl⟩
  rw [addInteraction_run, hchk]
  obtain ⟨cols, cats, hrun, _⟩ := addTail_rect (⟨n, .lin v, c, .num 1, some (PyTs.at now .none), true, false⟩ : Row)
    PyAttrs.none.entries m hm
  exact ⟨_, hrun⟩

theorem addedName_ne (env : Env) (k n : String) (t : ℚ) : addedName env k n t ≠ "" := by
  intro h
  have := congrArg String.length h
  simp [addedName, String.length_append] at this

theorem genQuad_ok {env : Env} {f g o : Coef → Coef} {clk : Nat → ℚ} {J : Row} {m m' : LModel}
    (hu : m.names.Nodup) (hJ : J ∈ m.rows) (hok : (genQuad env f g o clk J).run m = .ok ⟨⟩ m') :
    ∃ v w r₁ r₂ cols ats, J.inter = .quad v w ∧
      AddedRow (g J.coef) v (addedName env v.label J.name (clk 0)) r₁ ∧
      AddedRow (g J.coef) w (addedName env w.label J.name (clk 2)) r₂ ∧
      (m.names ++ [r₁.name, r₂.name]).Nodup ∧
      m' = { m with rows := m.rows.map (fun x => if x = J then withCoef env f x else x) ++ [r₁, r₂]
                    offset := m.offset.add (o J.coef), attrCols := cols, attrs := ats
                    length := m.length + 2 } ∧
      J.name ≠ "" ∧ (f J.coef).isNum = true := by
  unfold genQuad at hok
  cases hi : J.inter with
  | lin v => rw [hi] at hok; cases hok
  | quad v w =>
    rw [hi] at hok
    simp only at hok
    rw [Py.run_bind, updateCoef_run env hu hJ] at hok
    by_cases hne : J.name = ""
    · rw [if_pos hne] at hok; cases hok
    rw [if_neg hne] at hok
    cases hf : f J.coef with
    | expr e => rw [hf] at hok; cases hok
    | num q =>
      rw [hf] at hok
      simp only at hok
      by_cases hrm : J.removed = true
      · rw [if_pos hrm] at hok; cases hok
      rw [if_neg hrm] at hok
      simp only [Py.run_bind] at hok
      split at hok
      · rename_i m₂ h₂
        split at hok
        · rename_i m₃ h₃
          rw [Py.run_modify] at hok
          obtain ⟨r₁, c₁, a₁, hr₁, hn₁, rfl⟩ := addLin_ok (addedName_ne _ _ _ _) h₂
          obtain ⟨r₂, c₂, a₂, hr₂, hn₂, rfl⟩ := addLin_ok (addedName_ne _ _ _ _) h₃
          cases hok
          have hmap : (m.rows.map fun x => if x = J then setCoef env q x else x) =
              m.rows.map fun x => if x = J then withCoef env f x else x := by
            apply List.map_congr_left
            intro x _
            by_cases hx : x = J
            · rw [if_pos hx, if_pos hx, hx, setCoef_eq hf]
            · rw [if_neg hx, if_neg hx]
          have hnames : ∀ {k : LModel}, k.rows = (m.rows.map fun x => if x = J then setCoef env q x else x) →
              k.names = m.names := by
            intro k hk
            unfold LModel.names
            rw [hk]
            exact map_ite_names fun _ => rfl
          refine ⟨v, w, r₁, r₂, c₂, a₂, rfl, hr₁, hr₂, ?_, ?_, hne, rfl⟩
          · rw [hnames rfl] at hn₁
            have hn₂' : r₂.name ∉ m.names ++ [r₁.name] := by
              have : (m.names ++ [r₁.name]) = ((m.rows.map fun x => if x = J then setCoef env q x else x) ++
                  [r₁]).map (·.name) := by
                rw [List.map_append]
                congr 1
                exact (map_ite_names (u := setCoef env q) fun _ => rfl).symm
              rw [this, hr₂.name]
              exact hn₂
            rw [hr₁.name.symm] at hn₁
            have : (m.names ++ [r₁.name]).Nodup := by
              rw [List.nodup_append]
              refine ⟨hu, by simp, ?_⟩
              rintro a ha b hb rfl
              rw [List.mem_singleton] at hb
              exact hn₁ (hb ▸ ha)
            have h3 : ((m.names ++ [r₁.name]) ++ [r₂.name]).Nodup := by
              rw [List.nodup_append]
              refine ⟨this, by simp, ?_⟩
              rintro a ha b hb rfl
              rw [List.mem_singleton] at hb
              exact hn₂' (hb ▸ ha)
            simpa using h3
          · simp only [hmap, List.append_assoc, List.cons_append, List.nil_append, add_assoc, one_add_one_eq_two]
        · cases hok
      · cases hok

/-- The names that the conversion adds for a list of quadratic interactions. -/
def addedNames (env : Env) (clk : Nat → ℚ) (js : List Row) (k : Nat) : List String :=
  (js.zipIdx k).flatMap fun p => match p.1.inter with
    | .lin _ => []
    | .quad v w => [addedName env v.label p.1.name (clk (4 * p.2)), addedName env w.label p.1.name (clk (4 * p.2 + 2))]

/-- The loop over the quadratic interactions. -/
theorem genQuad_loop_ok {env : Env} {f g o : Coef → Coef} {clk : Nat → ℚ} (js : List Row) (k : Nat)
    {m m' : LModel} (hu : m.names.Nodup) (hh : ∀ h ∈ js, h ∈ m.rows) (hn : (js.map (·.name)).Nodup)
    (hok : ((js.zipIdx k).forM fun p => genQuad env f g o (fun i => clk (4 * p.2 + i)) p.1).run m = .ok ⟨⟩ m') :
    ∃ news cols ats, m' = { m with
        rows := m.rows.map (fun x => if x ∈ js then withCoef env f x else x) ++ news
        offset := js.foldl (fun a h => a.add (o h.coef)) m.offset, attrCols := cols, attrs := ats
        length := m.length + 2 * js.length } ∧
      List.Forall₂ (fun (p : PVar × Coef) r => ∃ k t, AddedRow (g p.2) p.1 (addedName env p.1.label k t) r)
        (js.flatMap fun J => match J.inter with
          | .lin _ => []
          | .quad v w => [(v, J.coef), (w, J.coef)]) news ∧
      (m.names ++ news.map (·.name)).Nodup ∧
      (∀ h ∈ js, h.name ≠ "" ∧ (f h.coef).isNum = true) ∧ news.map (·.name) = addedNames env clk js k := by
  induction js generalizing m k with
  | nil =>
    simp only [List.zipIdx_nil, Py.run_forM_nil] at hok
    cases hok
    exact ⟨[], m'.attrCols, m'.attrs, by simp, by simp, by simpa using hu, by simp, rfl⟩
  | cons J js ih =>
    simp only [List.zipIdx_cons, Py.run_forM_cons] at hok
    cases hr : (genQuad env f g o (fun i => clk (4 * k + i)) J).run m with
    | error e t => rw [hr] at hok; cases hok
    | ok u m₁ =>
      rw [hr] at hok
      obtain ⟨v, w, r₁, r₂, c₁, a₁, hi, hr₁, hr₂, hnd, rfl, hne, hnum⟩ := genQuad_ok hu (hh J (by simp)) hr
      have hn' := List.nodup_cons.mp hn
      have hnames := map_ite_names (rows := m.rows) (r := J) (withCoef_name env f)
      have hnames' : ∀ {k : LModel}, k.rows = (m.rows.map (fun x => if x = J then withCoef env f x else x)) ++ [r₁, r₂] →
          k.names = m.names ++ [r₁.name, r₂.name] := by
        intro k hk
        unfold LModel.names
        rw [hk, List.map_append, hnames]
        rfl
      obtain ⟨news, cols, ats, h1, h2, h3, h4, h5⟩ := ih (k + 1) (by rw [hnames' rfl]; exact hnd)
        (by
          intro x hx
          have hne : x ≠ J := by
            rintro rfl
            exact hn'.1 (List.mem_map.mpr ⟨x, hx, rfl⟩)
          exact List.mem_append_left _ (List.mem_map.mpr ⟨x, hh x (by simp [hx]), by simp [hne]⟩)) hn'.2 hok
      have hfresh : ∀ r ∈ [r₁, r₂], r ∉ js := by
        intro r hr hc
        have hmem : r.name ∈ m.names := List.mem_map.mpr ⟨r, hh r (by simp [hc]), rfl⟩
        have := (List.nodup_append.mp hnd).2.2 _ hmem r.name
          (by simp only [List.mem_cons, List.not_mem_nil, or_false] at hr ⊢
              rcases hr with rfl | rfl <;> simp)
        exact this rfl
      refine ⟨[r₁, r₂] ++ news, cols, ats, ?_, ?_, ?_, ?_, ?_⟩
      · rw [h1]
        simp only [List.foldl_cons, List.length_cons, List.map_append]
        rw [map_mem_cons (withCoef_name env f) hn'.1]
        have : ([r₁, r₂].map fun x => if x ∈ js then withCoef env f x else x) = [r₁, r₂] := by
          simp [hfresh r₁ (by simp), hfresh r₂ (by simp)]
        rw [this, List.append_assoc]
        congr 1
        omega
      · rw [List.flatMap_cons, hi]
        exact .cons ⟨_, _, hr₁⟩ (.cons ⟨_, _, hr₂⟩ h2)
      · rw [hnames' rfl] at h3
        simpa using h3
      · intro x hx
        rcases List.mem_cons.mp hx with rfl | hx
        · exact ⟨hne, hnum⟩
        · exact h4 x hx
      · rw [List.map_append, h5]
        simp [addedNames, hi, hr₁.name, hr₂.name]

theorem genQuad_succeeds {env : Env} {f g o : Coef → Coef} {clk : Nat → ℚ} {J : Row} {m : LModel}
    (hm : m.Rect) (hu : m.names.Nodup) (hJ : J ∈ m.rows) (hne : J.name ≠ "") (hrm : J.removed = false)
    (hf : (f J.coef).isNum = true) {v w : PVar} (hi : J.inter = .quad v w)
    (hfresh : (m.names ++ [addedName env v.label J.name (clk 0), addedName env w.label J.name (clk 2)]).Nodup) :
    ∃ m', (genQuad env f g o clk J).run m = .ok ⟨⟩ m' := by
  obtain ⟨q, hq⟩ := Coef.isNum_iff.mp hf
  have hrect : ∀ {m₁ : LModel}, (updateCoef env J.name (f J.coef)).run m = .ok ⟨⟩ m₁ → m₁.Rect := by
    intro m₁ h
    have := update_rect env.importTime 0 .none (.str J.name) (some (f J.coef).toPy) none none m hm
    unfold updateCoef at h
    rw [h] at this
    exact this
  have hup := updateCoef_run env hu hJ (f J.coef)
  rw [if_neg hne, hq] at hup
  simp only [hrm, Bool.false_eq_true, if_false] at hup
  rw [← hq] at hup
  have hr₁ := hrect hup
  unfold genQuad
  rw [hi]
  simp only
  rw [Py.run_bind, hup]
  simp only
  have hnames : ∀ {k : LModel}, k.rows = (m.rows.map fun x => if x = J then setCoef env q x else x) →
      k.names = m.names := by
    intro k hk
    unfold LModel.names
    rw [hk]
    exact map_ite_names fun _ => rfl
  have hnd : (m.names ++ [addedName env v.label J.name (clk 0)]).Nodup ∧
      addedName env w.label J.name (clk 2) ∉ m.names ++ [addedName env v.label J.name (clk 0)] := by
    have : ((m.names ++ [addedName env v.label J.name (clk 0)]) ++ [addedName env w.label J.name (clk 2)]).Nodup := by
      simpa using hfresh
    rw [List.nodup_append] at this
    exact ⟨this.1, fun h => this.2.2 _ h _ (by simp) rfl⟩
  obtain ⟨m₂, h₂⟩ := addLin_succeeds (clk 1) v (addedName_ne env v.label J.name (clk 0)) (g J.coef) hr₁ (by
    rw [hnames rfl]
    intro h
    exact (List.nodup_append.mp hnd.1).2.2 _ h _ (by simp) rfl)
  rw [Py.run_bind, h₂]
  simp only
  have hr₂ : m₂.Rect := by
    have := add_rect (clk 1) (.var v) (.str (addedName env v.label J.name (clk 0))) (g J.coef).toPy (.num 1)
      .none .none _ hr₁
    rw [h₂] at this
    exact this
  obtain ⟨r₁, c₁, a₁, hr₁, hn₁, rfl⟩ := addLin_ok (addedName_ne _ _ _ _) h₂
  obtain ⟨m₃, h₃⟩ := addLin_succeeds (clk 3) w (addedName_ne env w.label J.name (clk 2)) (g J.coef) hr₂ (by
    intro h
    apply hnd.2
    have : (m.names ++ [r₁.name]) = ((m.rows.map fun x => if x = J then setCoef env q x else x) ++
        [r₁]).map (·.name) := by
      rw [List.map_append]
      congr 1
      exact (map_ite_names (u := setCoef env q) fun _ => rfl).symm
    rw [← hr₁.name, this]
    exact h)
  rw [Py.run_bind, h₃]
  exact ⟨_, rfl⟩

theorem genQuad_rect (env : Env) (f g o : Coef → Coef) (clk : Nat → ℚ) (J : Row) : KeepsRect (genQuad env f g o clk J) := by
  unfold genQuad
  split
  · exact .throw' _
  · exact .bind (update_rect _ _ _ _ _ _ _) fun _ =>
      .bind (add_rect _ _ _ _ _ _ _) fun _ => .bind (add_rect _ _ _ _ _ _ _) fun _ =>
      .modify' fun s h => rect_same h rfl rfl rfl rfl

theorem genQuad_loop_succeeds {env : Env} {f g o : Coef → Coef} {clk : Nat → ℚ} (js : List Row) (k : Nat)
    {m : LModel} (hm : m.Rect) (hu : m.names.Nodup)
    (hh : ∀ h ∈ js, h ∈ m.rows ∧ h.name ≠ "" ∧ h.removed = false ∧ (f h.coef).isNum = true ∧ h.inter.body = 2)
    (hn : (js.map (·.name)).Nodup) (hfresh : (m.names ++ addedNames env clk js k).Nodup) :
    ∃ m', ((js.zipIdx k).forM fun p => genQuad env f g o (fun i => clk (4 * p.2 + i)) p.1).run m = .ok ⟨⟩ m' := by
  induction js generalizing m k with
  | nil => exact ⟨m, rfl⟩
  | cons J js ih =>
    obtain ⟨h1, h2, h3, h4, h5⟩ := hh J (by simp)
    cases hi : J.inter with
    | lin v => rw [hi] at h5; cases h5
    | quad v w =>
      have hadd : addedNames env clk (J :: js) k = [addedName env v.label J.name (clk (4 * k)),
          addedName env w.label J.name (clk (4 * k + 2))] ++ addedNames env clk js (k + 1) := by
        simp [addedNames, hi]
      rw [hadd, ← List.append_assoc] at hfresh
      obtain ⟨m₁, hr⟩ := genQuad_succeeds (g := g) (o := o) (clk := fun i => clk (4 * k + i)) hm hu h1 h2 h3 h4 hi
        (List.nodup_append.mp hfresh).1
      have hm₁ : m₁.Rect := by
        have := genQuad_rect env f g o (fun i => clk (4 * k + i)) J m hm
        rw [hr] at this
        exact this
      obtain ⟨v', w', r₁, r₂, c₁, a₁, hi', hr₁, hr₂, hnd, rfl, hne, hnum⟩ := genQuad_ok hu h1 hr
      rw [hi] at hi'
      cases hi'
      have hn' := List.nodup_cons.mp hn
      have hnames := map_ite_names (rows := m.rows) (r := J) (withCoef_name env f)
      have hnames' : ∀ {k : LModel}, k.rows = (m.rows.map (fun x => if x = J then withCoef env f x else x)) ++ [r₁, r₂] →
          k.names = m.names ++ [r₁.name, r₂.name] := by
        intro k hk
        unfold LModel.names
        rw [hk, List.map_append, hnames]
        rfl
      obtain ⟨m', h'⟩ := ih (k + 1) hm₁ (by rw [hnames' rfl]; exact hnd)
        (by
          intro x hx
          have hne : x ≠ J := by
            rintro rfl
            exact hn'.1 (List.mem_map.mpr ⟨x, hx, rfl⟩)
          obtain ⟨g1, g2⟩ := hh x (by simp [hx])
          exact ⟨List.mem_append_left _ (List.mem_map.mpr ⟨x, g1, by simp [hne]⟩), g2⟩) hn'.2
        (by
          rw [hnames' rfl, hr₁.name, hr₂.name]
          exact hfresh)
      refine ⟨m', ?_⟩
      rw [List.zipIdx_cons, Py.run_forM_cons, hr]
      exact h'

/-! ## The variables -/

theorem retypeVar_run (n : String) (m : LModel) : (retypeVar n).run m = match dget m.vars n with
    | none => .error .keyError m
    | some a => match arrayCreate n (a.shape.map Int.ofNat) m.mtype.vtype with
      | .error e => .error e m
      | .ok a' => .ok ⟨⟩ { m with vars := dset m.vars n a' } := by
  unfold retypeVar
  py_simp
  cases dget m.vars n with
  | none => rfl
  | some a =>
    simp only [Py.run_bind]
    cases arrayCreate n (a.shape.map Int.ofNat) m.mtype.vtype <;> rfl

/-- Creating an array with the shape of an array gives that shape. -/
theorem arrayCreate_shape {n : String} {sh : List Nat} {vt : VType} {a : VArray}
    (h : arrayCreate n (sh.map Int.ofNat) vt = .ok a) :
    a = ⟨sh, (indices sh).map fun i => ⟨vt, n ++ idxSuffix i⟩⟩ := by
  unfold arrayCreate at h
  have hsh : (sh.map Int.ofNat).map Int.toNat = sh := by
    rw [List.map_map]
    conv_rhs => rw [← List.map_id sh]
    apply List.map_congr_left
    intro x _
    simp
  split at h
  · cases h
  split at h
  · cases h
  split at h
  · cases h
  cases h
  simp only [hsh]

theorem retypeLoop_ok (l : List String) {m m' : LModel} (h : (l.forM retypeVar).run m = .ok ⟨⟩ m') :
    ∃ vs, m' = { m with vars := vs } ∧ dkeys vs = dkeys m.vars ∧
      (∀ n, n ∉ l → dget vs n = dget m.vars n) ∧
      ∀ n ∈ l, ∃ a a', dget m.vars n = some a ∧ dget vs n = some a' ∧
        arrayCreate n (a.shape.map Int.ofNat) m.mtype.vtype = .ok a' := by
  induction l generalizing m with
  | nil =>
    rw [Py.run_forM_nil] at h
    cases h
    exact ⟨m'.vars, rfl, rfl, fun _ _ => rfl, by simp⟩
  | cons n l ih =>
    rw [Py.run_forM_cons, retypeVar_run] at h
    cases ha : dget m.vars n with
    | none => rw [ha] at h; cases h
    | some a =>
      rw [ha] at h
      cases hc : arrayCreate n (a.shape.map Int.ofNat) m.mtype.vtype with
      | error e => simp only [hc] at h; cases h
      | ok a' =>
        simp only [hc] at h
        obtain ⟨vs, rfl, hk, hout, hin⟩ := ih h
        refine ⟨vs, rfl, ?_, ?_, ?_⟩
        · rw [hk]
          exact dkeys_dset_of_mem _ ((dget_isSome_iff _ _).mp ⟨a, ha⟩)
        · intro x hx
          rw [List.mem_cons, not_or] at hx
          rw [hout x hx.2]
          exact dget_dset_ne _ _ hx.1
        · have hn : ∀ x ∈ l, ∃ a a', dget m.vars x = some a ∧ dget vs x = some a' ∧
              arrayCreate x (a.shape.map Int.ofNat) m.mtype.vtype = .ok a' := by
            intro x hx
            obtain ⟨b, b', h1, h2, h3⟩ := hin x hx
            by_cases hxn : x = n
            · subst hxn
              simp only [dget_dset_self, Option.some.injEq] at h1
              subst h1
              refine ⟨a, b', ha, h2, ?_⟩
              have : a'.shape = a.shape := by rw [arrayCreate_shape hc]
              rw [this] at h3
              exact h3
            · simp only [dget_dset_ne _ _ hxn] at h1
              exact ⟨b, b', h1, h2, h3⟩
          intro x hx
          rcases List.mem_cons.mp hx with rfl | hx
          · by_cases hl : x ∈ l
            · exact hn x hl
            · refine ⟨a, a', ha, ?_, hc⟩
              rw [hout x hl]
              exact dget_dset_self _ _ _
          · exact hn x hx

theorem retypeLoop_succeeds (l : List String) {m : LModel}
    (h : ∀ n ∈ l, ∃ a a', dget m.vars n = some a ∧ arrayCreate n (a.shape.map Int.ofNat) m.mtype.vtype = .ok a') :
    ∃ m', (l.forM retypeVar).run m = .ok ⟨⟩ m' := by
  induction l generalizing m with
  | nil => exact ⟨m, rfl⟩
  | cons n l ih =>
    obtain ⟨a, a', h1, h2⟩ := h n (by simp)
    obtain ⟨m', hm'⟩ := ih (m := { m with vars := dset m.vars n a' }) (by
      intro x hx
      obtain ⟨b, b', g1, g2⟩ := h x (by simp [hx])
      by_cases hxn : x = n
      · subst hxn
        rw [h1] at g1
        cases g1
        exact ⟨a', a', dget_dset_self _ _ _, by
          rw [h2] at g2
          cases g2
          have : a'.shape = a.shape := by rw [arrayCreate_shape h2]
          rw [this]
          exact h2⟩
      · exact ⟨b, b', by simp only [dget_dset_ne _ _ hxn]; exact g1, g2⟩)
    refine ⟨m', ?_⟩
    rw [Py.run_forM_cons, retypeVar_run, h1]
    simp only [h2]
    exact hm'


/-! ## The whole conversion -/

theorem makeFrame_run (m : LModel) : makeFrame.run m =
    if m.attrCols.any (fun c => c.2.length ≠ m.rows.length) then .error .valueError m else .ok ⟨⟩ m := by
  unfold makeFrame
  rw [Py.run_bind, Py.run_get]
  simp only
  split <;> rfl

theorem makeFrame_rect {m : LModel} (h : m.Rect) : makeFrame.run m = .ok ⟨⟩ m := by
  rw [makeFrame_run, if_neg]
  simp only [List.any_eq_true, not_exists, not_and]
  intro c hc
  have : dget m.attrCols c.1 = some c.2 := dget_of_mem (by rw [h.keys]; exact h.nodup) hc
  simp [h.toCols.cols c.1 c.2 this]

theorem selectBody_run (b : Nat) {m m' : LModel} {rs : List Row} (h : (selectBody b).run m = .ok rs m') :
    m' = m ∧ rs = m.rows.filter fun r => r.inter.body == b && !r.removed := by
  unfold selectBody at h
  rw [Py.run_bind, makeFrame_run] at h
  split at h
  · rename_i hm
    split at hm
    · cases hm
    · cases hm
      cases h
      exact ⟨rfl, rfl⟩
  · cases h

theorem selectBody_rect (b : Nat) {m : LModel} (h : m.Rect) :
    (selectBody b).run m = .ok (m.rows.filter fun r => r.inter.body == b && !r.removed) m := by
  unfold selectBody
  rw [Py.run_bind, makeFrame_rect h]
  rfl

/-- An interaction after `_update_variables_type`. -/
def retypeRow (vt : VType) (r : Row) : Row := if r.removed then r else { r with inter := r.inter.retype vt }

/-- An interaction after a conversion. -/
def convRow (env : Env) (vt : VType) (f f₂ : Coef → Coef) (r : Row) : Row :=
  if r.removed then r else match r.inter with
    | .lin v => withCoef env f { r with inter := .lin ⟨vt, v.label⟩ }
    | .quad v w => withCoef env f₂ { r with inter := .quad ⟨vt, v.label⟩ ⟨vt, w.label⟩ }

/-- The variables of the interactions that a conversion adds, with the old coefficient. -/
def addedVars (vt : VType) (rows : List Row) : List (PVar × Coef) :=
  rows.flatMap fun r => if r.removed then [] else match r.inter with
    | .lin _ => []
    | .quad v w => [(⟨vt, v.label⟩, r.coef), (⟨vt, w.label⟩, r.coef)]

/-- The active interactions of a body. -/
def activeBody (b : Nat) (rows : List Row) : List Row := rows.filter fun r => r.inter.body == b && !r.removed

/-- What a successful conversion does. -/
structure Converted (env : Env) (mt : MType) (f o f₂ g₂ o₂ : Coef → Coef) (m m' : LModel) (news : List Row) : Prop where
  mtype : m'.mtype = mt
  keys : dkeys m'.vars = dkeys m.vars
  arrays : ∀ n a, dget m.vars n = some a → ∃ a', dget m'.vars n = some a' ∧
    arrayCreate n (a.shape.map Int.ofNat) mt.vtype = .ok a'
  rows : m'.rows = m.rows.map (convRow env mt.vtype f f₂) ++ news
  added : List.Forall₂ (fun (p : PVar × Coef) r => ∃ k t, AddedRow (g₂ p.2) p.1 (addedName env p.1.label k t) r) (addedVars mt.vtype m.rows) news
  names : (m.names ++ news.map (·.name)).Nodup
  offset : m'.offset = (activeBody 2 m.rows).foldl (fun a h => a.add (o₂ h.coef))
    ((activeBody 1 m.rows).foldl (fun a h => a.add (o h.coef)) m.offset)
  deleted : m'.deleted = m.deleted
  fixed : m'.fixed = m.fixed
  constraints : m'.constraints = m.constraints
  id : m'.id = m.id
  length : m'.length = m.length + news.length
  lin : ∀ h ∈ activeBody 1 m.rows, h.name ≠ "" ∧ (f h.coef).isNum = true
  quad : ∀ h ∈ activeBody 2 m.rows, h.name ≠ "" ∧ (f₂ h.coef).isNum = true

theorem names_sublist {rows : List Row} {P : Row → Bool} (h : (rows.map (·.name)).Nodup) :
    ((rows.filter P).map (·.name)).Nodup := (List.filter_sublist.map _).nodup h

theorem foldl_map_filter {α β γ : Type} (l : List α) (P : α → Bool) (g : α → β) (Q : β → Bool) (F : γ → β → γ)
    (G : γ → α → γ) (z : γ) (hP : ∀ x ∈ l, Q (g x) = P x) (hF : ∀ x ∈ l, P x = true → ∀ a, F a (g x) = G a x) :
    ((l.map g).filter Q).foldl F z = (l.filter P).foldl G z := by
  induction l generalizing z with
  | nil => rfl
  | cons x l ih =>
    have hx := hP x (by simp)
    simp only [List.map_cons, List.filter_cons, hx]
    by_cases h : P x = true
    · simp only [h, if_true, List.foldl_cons, hF x (by simp) h]
      exact ih _ (fun y hy => hP y (by simp [hy])) fun y hy => hF y (by simp [hy])
    · simp only [h]
      exact ih _ (fun y hy => hP y (by simp [hy])) fun y hy => hF y (by simp [hy])

theorem Inter.body_retype (i : Inter) (vt : VType) : (i.retype vt).body = i.body := by cases i <;> rfl

theorem flatMap_pair_length (js : List Row) (h : ∀ J ∈ js, J.inter.body = 2) :
    (js.flatMap fun J => match J.inter with
      | .lin _ => []
      | .quad v w => [(v, J.coef), (w, J.coef)]).length = 2 * js.length := by
  induction js with
  | nil => rfl
  | cons J js ih =>
    rw [List.flatMap_cons, List.length_append, ih fun x hx => h x (by simp [hx])]
    have := h J (by simp)
    cases hi : J.inter with
    | lin v => rw [hi] at this; cases this
    | quad v w => simp; omega

theorem genConv_ok_names {env : Env} {mt : MType} {f o f₂ g₂ o₂ : Coef → Coef} {clk : Nat → ℚ} {m m' : LModel}
    (hu : m.names.Nodup) (h : (genConv env mt f o f₂ g₂ o₂ clk).run m = .ok ⟨⟩ m') :
    ∃ news, Converted env mt f o f₂ g₂ o₂ m m' news ∧
      news.map (·.name) = addedNames env clk (activeBody 2 m.rows) 0 := by
  unfold genConv at h
  rw [Py.run_bind, Py.run_modify] at h
  simp only at h
  rw [Py.run_bind] at h
  split at h
  swap
  · cases h
  rename_i m₁ h₁
  -- the variables
  have hm₁ : ∃ vs, m₁ = { m with mtype := mt, vars := vs, rows := m.rows.map (retypeRow mt.vtype) } ∧
      dkeys vs = dkeys m.vars ∧ ∀ n a, dget m.vars n = some a → ∃ a', dget vs n = some a' ∧
        arrayCreate n (a.shape.map Int.ofNat) mt.vtype = .ok a' := by
    unfold updateVariablesType at h₁
    rw [Py.run_bind, Py.run_get] at h₁
    simp only at h₁
    rw [Py.run_bind] at h₁
    split at h₁
    swap
    · cases h₁
    rename_i m₀ h₀
    obtain ⟨vs, rfl, hk, -, hin⟩ := retypeLoop_ok _ h₀
    rw [Py.run_bind, makeFrame_run] at h₁
    split at h₁
    swap
    · cases h₁
    rename_i hf
    split at hf
    · cases hf
    cases hf
    rw [Py.run_modify] at h₁
    cases h₁
    refine ⟨vs, rfl, hk, ?_⟩
    intro n a ha
    obtain ⟨b, a', hb, ha', hc⟩ := hin n ((dget_isSome_iff _ _).mp ⟨a, ha⟩)
    simp only at hb
    rw [ha] at hb
    cases hb
    exact ⟨a', ha', hc⟩
  obtain ⟨vs, rfl, hk, harr⟩ := hm₁
  have hname : ∀ r, (retypeRow mt.vtype r).name = r.name := by
    intro r; unfold retypeRow; split <;> rfl
  have hrem : ∀ r, (retypeRow mt.vtype r).removed = r.removed := by
    intro r; unfold retypeRow; split <;> rfl
  have hbody : ∀ r, (retypeRow mt.vtype r).inter.body = r.inter.body := by
    intro r
    unfold retypeRow
    split
    · rfl
    · exact Inter.body_retype _ _
  have hcoef : ∀ r, (retypeRow mt.vtype r).coef = r.coef := by
    intro r; unfold retypeRow; split <;> rfl
  have hnm₁ : (m.rows.map (retypeRow mt.vtype)).map (·.name) = m.rows.map (·.name) := by
    rw [List.map_map]
    exact List.map_congr_left fun r _ => hname r
  -- the linear interactions
  rw [Py.run_bind] at h
  split at h
  swap
  · cases h
  rename_i hs m₁' hsel₁
  obtain ⟨rfl, rfl⟩ := selectBody_run 1 hsel₁
  rw [Py.run_bind] at h
  split at h
  swap
  · cases h
  rename_i m₂ hlin
  obtain ⟨rfl, hlin'⟩ := genLin_loop_ok _ (by simp only [LModel.names, hnm₁]; exact hu)
    (fun x hx => List.mem_of_mem_filter hx) (names_sublist (by rw [hnm₁]; exact hu)) hlin
  -- the quadratic interactions
  rw [Py.run_bind] at h
  split at h
  swap
  · cases h
  rename_i js m₂' hsel₂
  obtain ⟨rfl, rfl⟩ := selectBody_run 2 hsel₂
  simp only at h
  set hs := (m.rows.map (retypeRow mt.vtype)).filter fun r => r.inter.body == 1 && !r.removed with hhs
  set rows₂ := (m.rows.map (retypeRow mt.vtype)).map fun x => if x ∈ hs then withCoef env f x else x with hrows₂
  have hnm₂ : rows₂.map (·.name) = m.rows.map (·.name) := by
    rw [hrows₂, ← hnm₁, List.map_map]
    apply List.map_congr_left
    intro x _
    simp only [Function.comp]
    split <;> rfl
  have hloop := fun h1 h2 h3 => genQuad_loop_ok _ 0 h1 h2 h3 h
  obtain ⟨news, cols, ats, rfl, hadd, hnd, hquad, hnn⟩ := hloop (by simp only [LModel.names, hnm₂]; exact hu)
    (fun x hx => List.mem_of_mem_filter hx) (names_sublist (rows := rows₂) (by rw [hnm₂]; exact hu))
  set js := rows₂.filter fun r => r.inter.body == 2 && !r.removed with hjs
  -- the rows of the second stage
  have hrow₂ : rows₂ = m.rows.map fun r => if r.inter.body == 1 && !r.removed then
      withCoef env f (retypeRow mt.vtype r) else retypeRow mt.vtype r := by
    rw [hrows₂, List.map_map]
    apply List.map_congr_left
    intro r hr
    simp only [Function.comp]
    have : retypeRow mt.vtype r ∈ hs ↔ (r.inter.body == 1 && !r.removed) = true := by
      rw [hhs, List.mem_filter, hbody, hrem]
      constructor
      · exact fun h => h.2
      · exact fun h => ⟨List.mem_map.mpr ⟨r, hr, rfl⟩, h⟩
    by_cases hc : (r.inter.body == 1 && !r.removed) = true
    · rw [if_pos (this.mpr hc), if_pos hc]
    · rw [if_neg (fun h => hc (this.mp h)), if_neg hc]
  set row₂ : Row → Row := fun r => if r.inter.body == 1 && !r.removed then
      withCoef env f (retypeRow mt.vtype r) else retypeRow mt.vtype r with hrow₂d
  have hrem₂ : ∀ r, (row₂ r).removed = r.removed := by
    intro r; rw [hrow₂d]; simp only; split <;> exact hrem r
  have hbody₂ : ∀ r, (row₂ r).inter.body = r.inter.body := by
    intro r; rw [hrow₂d]; simp only; split <;> exact hbody r
  have hcoef₂ : ∀ r, (r.inter.body == 2 && !r.removed) = true → row₂ r = retypeRow mt.vtype r := by
    intro r hr
    rw [hrow₂d]
    simp only
    rw [if_neg]
    simp only [Bool.and_eq_true, beq_iff_eq] at hr ⊢
    omega
  have hmemjs : ∀ r ∈ m.rows, row₂ r ∈ js ↔ (r.inter.body == 2 && !r.removed) = true := by
    intro r hr
    rw [hjs, List.mem_filter, hbody₂, hrem₂]
    constructor
    · exact fun h => h.2
    · exact fun h => ⟨by rw [hrow₂]; exact List.mem_map.mpr ⟨r, hr, rfl⟩, h⟩
  have hfin : rows₂.map (fun x => if x ∈ js then withCoef env f₂ x else x) =
      m.rows.map (convRow env mt.vtype f f₂) := by
    conv_lhs => rw [hrow₂]
    rw [List.map_map]
    apply List.map_congr_left
    intro r hr
    simp only [Function.comp]
    have hmj := hmemjs r hr
    unfold convRow
    by_cases hrm : r.removed = true
    · rw [if_pos hrm, if_neg (by rw [hmj]; simp [hrm])]
      simp [hrow₂d, hrm, retypeRow]
    · rw [if_neg hrm]
      cases hi : r.inter with
      | lin v =>
        rw [if_neg (by rw [hmj]; simp [hi, Inter.body])]
        simp [hrow₂d, hi, Inter.body, hrm, retypeRow, Inter.retype, withCoef]
      | quad v w =>
        have hb : (r.inter.body == 2 && !r.removed) = true := by simp [hi, Inter.body, hrm]
        rw [if_pos (hmj.mpr hb), hcoef₂ r hb]
        simp [retypeRow, hrm, hi, Inter.retype, withCoef]
  have haddeq : (js.flatMap fun J => match J.inter with
          | .lin _ => []
          | .quad v w => [(v, J.coef), (w, J.coef)]) = addedVars mt.vtype m.rows := by
    rw [hjs, hrow₂]
    unfold addedVars
    clear_value js rows₂
    clear hmemjs hloop hfin hadd hnd hquad h hrow₂ hjs hsel₂ hlin hlin' hrows₂ hnm₂ hsel₁ h₁ hnm₁ hu hhs hs
    induction m.rows with
    | nil => rfl
    | cons r rows ih =>
      rw [List.map_cons, List.filter_cons, hbody₂, hrem₂, List.flatMap_cons, ← ih]
      by_cases hc : (r.inter.body == 2 && !r.removed) = true
      · rw [if_pos hc, List.flatMap_cons, hcoef₂ r hc]
        simp only [Bool.and_eq_true, Bool.not_eq_true', beq_iff_eq] at hc
        congr 1
        cases hi : r.inter with
        | lin v => rw [hi] at hc; simp [Inter.body] at hc
        | quad v w => simp [retypeRow, hc.2, hi, Inter.retype]
      · rw [if_neg hc]
        by_cases hrm : r.removed = true
        · simp [hrm]
        · cases hi : r.inter with
          | lin v => simp [hrm]
          | quad v w => simp [hi, Inter.body, hrm] at hc
  have hnames₂ : addedNames env clk js 0 = addedNames env clk (activeBody 2 m.rows) 0 := by
    have : js = (activeBody 2 m.rows).map row₂ := by
      rw [hjs, hrow₂, List.filter_map]
      congr 1
      unfold activeBody
      congr 1
      funext r
      simp only [Function.comp, hbody₂, hrem₂]
    rw [this, addedNames, addedNames, List.zipIdx_map, List.flatMap_map]
    apply List.flatMap_congr
    rintro ⟨r, i⟩ hr
    have hr' := List.of_mem_filter (List.fst_mem_of_mem_zipIdx hr)
    simp only [Prod.map, id] at hr' ⊢
    rw [hcoef₂ r hr', hname]
    simp only [Bool.and_eq_true, Bool.not_eq_true'] at hr'
    cases hi : r.inter with
    | lin v => simp [retypeRow, hr'.2, hi, Inter.retype]
    | quad v w => simp [retypeRow, hr'.2, hi, Inter.retype]
  refine ⟨news, ⟨rfl, hk, harr, ?_, haddeq ▸ hadd, ?_, ?_, rfl, rfl, rfl, rfl, ?_, ?_, ?_⟩, hnn.trans hnames₂⟩
  · simp only [hfin]
  · simpa only [LModel.names, hnm₂] using hnd
  · simp only
    rw [hjs, hrow₂]
    rw [foldl_map_filter m.rows (fun r => r.inter.body == 2 && !r.removed) row₂ _ _ (fun a h => a.add (o₂ h.coef))]
    · rw [hhs, foldl_map_filter m.rows (fun r => r.inter.body == 1 && !r.removed) (retypeRow mt.vtype) _ _
        (fun a h => a.add (o h.coef))]
      · rfl
      · intro x _; rw [hbody, hrem]
      · intro x _ _ a; rw [hcoef]
    · intro x _; rw [hbody₂, hrem₂]
    · intro x _ hx a; rw [hcoef₂ x hx, hcoef]
  · have hlen : news.length = 2 * js.length := by
      rw [← hadd.length_eq]
      have hjb : ∀ J ∈ js, J.inter.body = 2 := by
        intro J hJ
        have := List.of_mem_filter hJ
        simp only [Bool.and_eq_true, beq_iff_eq] at this
        exact this.1
      exact flatMap_pair_length js hjb
    simp only [hlen, Nat.cast_mul, Nat.cast_ofNat]
  · intro r hr
    have hr' := List.mem_filter.mp hr
    have := hlin' (retypeRow mt.vtype r) (by
      rw [hhs, List.mem_filter, hbody, hrem]
      exact ⟨List.mem_map.mpr ⟨r, hr'.1, rfl⟩, hr'.2⟩)
    rwa [hname, hcoef] at this
  · intro r hr
    have hr' := List.mem_filter.mp hr
    have := hquad (row₂ r) ((hmemjs r hr'.1).mpr hr'.2)
    rwa [hcoef₂ r hr'.2, hname, hcoef] at this

theorem genConv_ok {env : Env} {mt : MType} {f o f₂ g₂ o₂ : Coef → Coef} {clk : Nat → ℚ} {m m' : LModel}
    (hu : m.names.Nodup) (h : (genConv env mt f o f₂ g₂ o₂ clk).run m = .ok ⟨⟩ m') :
    ∃ news, Converted env mt f o f₂ g₂ o₂ m m' news := by
  obtain ⟨news, h, _⟩ := genConv_ok_names hu h
  exact ⟨news, h⟩

/-! ## Sums over the interactions of a converted model -/

/-- A quantity of an active interaction. -/
def Row.active (F : Inter → Coef → Coef → ℚ) (r : Row) : ℚ :=
  if r.removed then 0 else F r.inter r.coef r.scale

/-- What the rows that stem from one interaction contribute to a sum after a conversion. -/
def convSum (vt : VType) (f f₂ g₂ : Coef → Coef) (F : Inter → Coef → Coef → ℚ) : Inter → Coef → Coef → ℚ :=
  fun i c s => match i with
    | .lin v => F (.lin ⟨vt, v.label⟩) (f c) s
    | .quad v w => F (.quad ⟨vt, v.label⟩ ⟨vt, w.label⟩) (f₂ c) s + F (.lin ⟨vt, v.label⟩) (g₂ c) (.num 1)
        + F (.lin ⟨vt, w.label⟩) (g₂ c) (.num 1)

theorem converted_sum {env : Env} {mt : MType} {f o f₂ g₂ o₂ : Coef → Coef} {m m' : LModel} {news : List Row}
    (h : Converted env mt f o f₂ g₂ o₂ m m' news) (F : Inter → Coef → Coef → ℚ) :
    (m'.rows.map (Row.active F)).sum = (m.rows.map (Row.active (convSum mt.vtype f f₂ g₂ F))).sum := by
  have hnews : (news.map (Row.active F)).sum =
      ((addedVars mt.vtype m.rows).map fun p => F (.lin p.1) (g₂ p.2) (.num 1)).sum := by
    have := h.added
    clear h
    generalize addedVars mt.vtype m.rows = l at this ⊢
    induction this with
    | nil => rfl
    | cons hp _ ih =>
      obtain ⟨k, t, hp⟩ := hp
      simp only [List.map_cons, List.sum_cons, ih, Row.active, hp.inter, hp.coef, hp.scale, hp.removed,
        Bool.false_eq_true, if_false]
  rw [h.rows, List.map_append, List.sum_append, hnews]
  clear hnews h
  induction m.rows with
  | nil => simp [addedVars]
  | cons r rows ih =>
    simp only [List.map_cons, List.sum_cons, addedVars, List.flatMap_cons, List.map_append, List.sum_append] at ih ⊢
    rw [← ih]
    have : Row.active F (convRow env mt.vtype f f₂ r) + ((if r.removed then [] else match r.inter with
          | .lin _ => []
          | .quad v w => [((⟨mt.vtype, v.label⟩ : PVar), r.coef), (⟨mt.vtype, w.label⟩, r.coef)]).map fun p =>
            F (.lin p.1) (g₂ p.2) (.num 1)).sum = Row.active (convSum mt.vtype f f₂ g₂ F) r := by
      unfold convRow Row.active convSum
      by_cases hrm : r.removed = true
      · simp [hrm]
      · cases hi : r.inter with
        | lin v => simp [hrm, withCoef]
        | quad v w => simp [hrm, withCoef]; ring
    rw [← this]
    ring

theorem Coef.eval_num (ρ : PEnv) (q : ℚ) : (Coef.num q).eval ρ = q := rfl

theorem foldl_add_eval (ρ : PEnv) (o : Coef → Coef) (hs : List Row) (z : Coef) :
    (hs.foldl (fun a h => a.add (o h.coef)) z).eval ρ = z.eval ρ + (hs.map fun h => (o h.coef).eval ρ).sum := by
  induction hs generalizing z with
  | nil => simp
  | cons h hs ih =>
    rw [List.foldl_cons, ih, Coef.eval_add, List.map_cons, List.sum_cons]
    ring

theorem converted_offset {env : Env} {mt : MType} {f o f₂ g₂ o₂ : Coef → Coef} {m m' : LModel} {news : List Row}
    (h : Converted env mt f o f₂ g₂ o₂ m m' news) (ρ : PEnv) :
    m'.offset.eval ρ = m.offset.eval ρ + (m.rows.map (Row.active fun i c _ => match i with
      | .lin _ => (o c).eval ρ
      | .quad _ _ => (o₂ c).eval ρ)).sum := by
  rw [h.offset, foldl_add_eval, foldl_add_eval, add_assoc]
  congr 1
  clear h
  induction m.rows with
  | nil => simp [activeBody]
  | cons r rows ih =>
    simp only [List.map_cons, List.sum_cons]
    rw [← ih]
    unfold activeBody Row.active
    by_cases hrm : r.removed = true
    · simp [hrm]
    · cases hi : r.inter with
      | lin v => simp [hrm, hi, Inter.body]; ring
      | quad v w => simp [hrm, hi, Inter.body]; ring

theorem term_eq_active (ρ : PEnv) (σ : Assign) :
    Row.term ρ σ = Row.active fun i c s => c.eval ρ * s.eval ρ * i.value σ := rfl

theorem sum_active_add (rows : List Row) (F G : Inter → Coef → Coef → ℚ) :
    (rows.map (Row.active F)).sum + (rows.map (Row.active G)).sum =
      (rows.map (Row.active fun i c s => F i c s + G i c s)).sum := by
  induction rows with
  | nil => simp
  | cons r rows ih =>
    simp only [List.map_cons, List.sum_cons, ← ih]
    unfold Row.active
    split <;> ring

theorem sum_active_sub (rows : List Row) (F G : Inter → Coef → Coef → ℚ) :
    (rows.map (Row.active F)).sum - (rows.map (Row.active G)).sum =
      (rows.map (Row.active fun i c s => F i c s - G i c s)).sum := by
  induction rows with
  | nil => simp
  | cons r rows ih =>
    simp only [List.map_cons, List.sum_cons, ← ih]
    unfold Row.active
    split <;> ring

theorem sum_active_neg (rows : List Row) (F : Inter → Coef → Coef → ℚ) :
    (rows.map (Row.active fun i c s => -F i c s)).sum = -(rows.map (Row.active F)).sum := by
  induction rows with
  | nil => simp
  | cons r rows ih =>
    simp only [List.map_cons, List.sum_cons, ih]
    unfold Row.active
    split <;> ring

theorem converted_names {env : Env} {mt : MType} {f o f₂ g₂ o₂ : Coef → Coef} {m m' : LModel} {news : List Row}
    (h : Converted env mt f o f₂ g₂ o₂ m m' news) : m'.names.Nodup := by
  have : m'.names = m.names ++ news.map (·.name) := by
    unfold LModel.names
    rw [h.rows, List.map_append, List.map_map]
    congr 1
    apply List.map_congr_left
    intro r _
    simp only [Function.comp, convRow]
    split
    · rfl
    · split <;> rfl
  rw [this]
  exact h.names

theorem sum_active_congr {rows : List Row} {F G : Inter → Coef → Coef → ℚ}
    (h : ∀ r ∈ rows, r.removed = false → F r.inter r.coef r.scale = G r.inter r.coef r.scale) :
    (rows.map (Row.active F)).sum = (rows.map (Row.active G)).sum := by
  congr 1
  apply List.map_congr_left
  intro r hr
  unfold Row.active
  split
  · rfl
  · rename_i hrm
    exact h r hr (by simpa using hrm)


/-! ## When a conversion succeeds -/

theorem genLin_rect (env : Env) (f o : Coef → Coef) (h : Row) : KeepsRect (genLin env f o h) :=
  .bind (update_rect _ _ _ _ _ _ _) fun _ => .modify' fun s h => rect_same h rfl rfl rfl rfl

theorem convert_map_filter {m : List Row} {env : Env} {vt : VType} {f : Coef → Coef} :
    let rows₁ := m.map (retypeRow vt)
    (rows₁.map fun x => if x ∈ activeBody 1 rows₁ then withCoef env f x else x) =
      m.map fun r => if r.inter.body == 1 && !r.removed then withCoef env f (retypeRow vt r) else retypeRow vt r := by
  intro rows₁
  have hrem : ∀ r, (retypeRow vt r).removed = r.removed := by
    intro r; unfold retypeRow; split <;> rfl
  have hbody : ∀ r, (retypeRow vt r).inter.body = r.inter.body := by
    intro r
    unfold retypeRow
    split
    · rfl
    · exact Inter.body_retype _ _
  rw [List.map_map]
  apply List.map_congr_left
  intro r hr
  simp only [Function.comp]
  have : retypeRow vt r ∈ activeBody 1 rows₁ ↔ (r.inter.body == 1 && !r.removed) = true := by
    unfold activeBody
    rw [List.mem_filter, hbody, hrem]
    constructor
    · exact fun h => h.2
    · exact fun h => ⟨List.mem_map.mpr ⟨r, hr, rfl⟩, h⟩
  by_cases hc : (r.inter.body == 1 && !r.removed) = true
  · rw [if_pos (this.mpr hc), if_pos hc]
  · rw [if_neg (fun h => hc (this.mp h)), if_neg hc]

/-- The names depend only on the names and the variables of the interactions. -/
theorem addedNames_congr (env : Env) (clk : Nat → ℚ) {js js' : List Row} (k : Nat)
    (h : List.Forall₂ (fun a b : Row => a.name = b.name ∧ a.inter.key0 = b.inter.key0 ∧ a.inter.key1 = b.inter.key1)
      js js') : addedNames env clk js k = addedNames env clk js' k := by
  induction h generalizing k with
  | nil => rfl
  | @cons a b js js' hab _ ih =>
    simp only [addedNames, List.zipIdx_cons, List.flatMap_cons] at ih ⊢
    rw [ih]
    congr 1
    obtain ⟨h1, h2, h3⟩ := hab
    cases ha : a.inter <;> cases hb : b.inter <;> simp_all [Inter.key0, Inter.key1]

theorem genConv_succeeds {env : Env} {mt : MType} {f o f₂ g₂ o₂ : Coef → Coef} {clk : Nat → ℚ} {m : LModel}
    (hm : m.Rect) (hu : m.names.Nodup)
    (harr : ∀ n a, dget m.vars n = some a → ∃ a', arrayCreate n (a.shape.map Int.ofNat) mt.vtype = .ok a')
    (hlin : ∀ h ∈ activeBody 1 m.rows, h.name ≠ "" ∧ (f h.coef).isNum = true)
    (hquad : ∀ h ∈ activeBody 2 m.rows, h.name ≠ "" ∧ (f₂ h.coef).isNum = true)
    (hfresh : (m.names ++ addedNames env clk (activeBody 2 m.rows) 0).Nodup) :
    ∃ m', (genConv env mt f o f₂ g₂ o₂ clk).run m = .ok ⟨⟩ m' := by
  have hname : ∀ r, (retypeRow mt.vtype r).name = r.name := by
    intro r; unfold retypeRow; split <;> rfl
  have hrem : ∀ r, (retypeRow mt.vtype r).removed = r.removed := by
    intro r; unfold retypeRow; split <;> rfl
  have hbody : ∀ r, (retypeRow mt.vtype r).inter.body = r.inter.body := by
    intro r
    unfold retypeRow
    split
    · rfl
    · exact Inter.body_retype _ _
  have hkeys : ∀ r, (retypeRow mt.vtype r).inter.key0 = r.inter.key0 ∧ (retypeRow mt.vtype r).inter.key1 = r.inter.key1 := by
    intro r
    unfold retypeRow
    split
    · exact ⟨rfl, rfl⟩
    · cases r.inter <;> exact ⟨rfl, rfl⟩
  have hcoef : ∀ r, (retypeRow mt.vtype r).coef = r.coef := by
    intro r; unfold retypeRow; split <;> rfl
  have hnm₁ : (m.rows.map (retypeRow mt.vtype)).map (·.name) = m.rows.map (·.name) := by
    rw [List.map_map]
    exact List.map_congr_left fun r _ => hname r
  -- variables
  obtain ⟨m₀, h₀⟩ := retypeLoop_succeeds (dkeys m.vars) (m := { m with mtype := mt }) (by
    intro n hn
    obtain ⟨a, ha⟩ := (dget_isSome_iff _ _).mpr hn
    obtain ⟨a', ha'⟩ := harr n a ha
    exact ⟨a, a', ha, ha'⟩)
  obtain ⟨vs, rfl, hk, -, -⟩ := retypeLoop_ok _ h₀
  have hmk : ∀ vs, LModel.Rect { m with mtype := mt, vars := vs } := fun vs => rect_same hm rfl rfl rfl rfl
  have h₁ : updateVariablesType.run { m with mtype := mt } =
      .ok ⟨⟩ { m with mtype := mt, vars := vs, rows := m.rows.map (retypeRow mt.vtype) } := by
    unfold updateVariablesType
    rw [Py.run_bind, Py.run_get]
    simp only
    rw [Py.run_bind, h₀]
    simp only
    rw [Py.run_bind, makeFrame_rect (hmk vs)]
    simp only
    rw [Py.run_modify]
    rfl
  have hr₁ : LModel.Rect { m with mtype := mt, vars := vs, rows := m.rows.map (retypeRow mt.vtype) } :=
    rect_same hm rfl (by simp) rfl rfl
  unfold genConv
  rw [Py.run_bind, Py.run_modify]
  simp only
  rw [Py.run_bind, h₁]
  simp only
  rw [Py.run_bind, selectBody_rect 1 hr₁]
  simp only
  -- linear
  have hsuc := genLin_loop_succeeds (env := env) (f := f) (o := o) (activeBody 1 (m.rows.map (retypeRow mt.vtype)))
    (m := { m with mtype := mt, vars := vs, rows := m.rows.map (retypeRow mt.vtype) })
    (by simp only [LModel.names, hnm₁]; exact hu)
    (by
      intro h hh
      obtain ⟨hmem, hb⟩ := List.mem_filter.mp hh
      obtain ⟨r, hr, rfl⟩ := List.mem_map.mp hmem
      rw [hbody, hrem] at hb
      obtain ⟨h1, h2⟩ := hlin r (List.mem_filter.mpr ⟨hr, hb⟩)
      refine ⟨hmem, by rw [hname]; exact h1, ?_, by rw [hcoef]; exact h2⟩
      rw [hrem]
      simp only [Bool.and_eq_true, Bool.not_eq_true'] at hb
      exact hb.2)
    (names_sublist (by rw [hnm₁]; exact hu))
  obtain ⟨m₂, h₂⟩ := hsuc
  have hr₂ : m₂.Rect := by
    have := Py.Preserves.forM (I := LModel.Rect) (l := activeBody 1 (m.rows.map (retypeRow mt.vtype)))
      (fun h _ => genLin_rect env f o h) _ hr₁
    rw [h₂] at this
    exact this
  have hloop := fun h1 h2 h3 => genLin_loop_ok _ h1 h2 h3 h₂
  obtain ⟨hm₂, -⟩ := hloop (by simp only [LModel.names, hnm₁]; exact hu)
    (fun x hx => List.mem_of_mem_filter hx) (names_sublist (by rw [hnm₁]; exact hu))
  clear hloop
  rw [convert_map_filter] at hm₂
  set row₂ : Row → Row := fun r => if r.inter.body == 1 && !r.removed then
      withCoef env f (retypeRow mt.vtype r) else retypeRow mt.vtype r with hrow₂d
  have hname₂ : ∀ r, (row₂ r).name = r.name := by
    intro r; rw [hrow₂d]; simp only; split <;> exact hname r
  have hrem₂ : ∀ r, (row₂ r).removed = r.removed := by
    intro r; rw [hrow₂d]; simp only; split <;> exact hrem r
  have hbody₂ : ∀ r, (row₂ r).inter.body = r.inter.body := by
    intro r; rw [hrow₂d]; simp only; split <;> exact hbody r
  have hkeys₂ : ∀ r, (row₂ r).inter.key0 = r.inter.key0 ∧ (row₂ r).inter.key1 = r.inter.key1 := by
    intro r; rw [hrow₂d]; simp only; split <;> exact hkeys r
  have hcoef₂ : ∀ r, (r.inter.body == 2 && !r.removed) = true → (row₂ r).coef = r.coef := by
    intro r hr
    rw [hrow₂d]
    simp only
    rw [if_neg, hcoef]
    simp only [Bool.and_eq_true, beq_iff_eq] at hr ⊢
    omega
  have hrows₂ : m₂.rows = m.rows.map row₂ := by rw [hm₂]
  have hnames₂ : m₂.names = m.names := by
    unfold LModel.names
    rw [hrows₂, List.map_map]
    exact List.map_congr_left fun r _ => hname₂ r
  have h₂' : ((List.filter (fun r => r.inter.body == 1 && !r.removed) (List.map (retypeRow mt.vtype) m.rows)).forM
      (genLin env f o)).run { m with mtype := mt, vars := vs, rows := m.rows.map (retypeRow mt.vtype) } = .ok ⟨⟩ m₂ := h₂
  rw [Py.run_bind, h₂']
  simp only
  rw [Py.run_bind, selectBody_rect 2 hr₂]
  simp only
  have hjs : ∀ rows : List Row, addedNames env clk (activeBody 2 (rows.map row₂)) 0 = addedNames env clk (activeBody 2 rows) 0 := by
    intro rows
    apply addedNames_congr
    induction rows with
    | nil => exact .nil
    | cons r rows ih =>
      simp only [activeBody, List.map_cons, List.filter_cons, hbody₂, hrem₂] at ih ⊢
      split
      · exact .cons ⟨hname₂ r, hkeys₂ r⟩ ih
      · exact ih
  refine genQuad_loop_succeeds (activeBody 2 m₂.rows) 0 hr₂ (by rw [hnames₂]; exact hu) ?_ ?_ ?_
  · intro h hh
    obtain ⟨hmem, hb⟩ := List.mem_filter.mp hh
    have hmem' := hmem
    rw [hrows₂] at hmem'
    obtain ⟨r, hr, rfl⟩ := List.mem_map.mp hmem'
    rw [hbody₂, hrem₂] at hb
    obtain ⟨h1, h2⟩ := hquad r (List.mem_filter.mpr ⟨hr, hb⟩)
    refine ⟨hmem, by rw [hname₂]; exact h1, ?_, by rw [hcoef₂ r hb]; exact h2, ?_⟩
    · rw [hrem₂]
      simp only [Bool.and_eq_true, Bool.not_eq_true'] at hb
      exact hb.2
    · rw [hbody₂]
      simp only [Bool.and_eq_true, beq_iff_eq] at hb
      exact hb.1
  · exact names_sublist (by have := hnames₂; unfold LModel.names at this; rw [this]; exact hu)
  · rw [hnames₂, hrows₂, hjs]
    exact hfresh

end Sawatabi
