import Verif.Props.Conversion
import Verif.Lemmas.Frame

/-!
# What a conversion that raises leaves (C37)

The type is switched first, then the arrays are recreated, then the interactions are converted one after the other:
the active linear ones and then the active quadratic ones. An exception stops the conversion in the middle.
-/

namespace Sawatabi

/-- A loop that raises: some element raises after the elements before it went through. -/
theorem Py.forM_error {σ α : Type} {f : α → Py σ Unit} (l : List α) {s t : σ} {e : Err}
    (h : (l.forM f).run s = .error e t) :
    ∃ l₁ x l₂ s₁, l = l₁ ++ x :: l₂ ∧ (l₁.forM f).run s = .ok ⟨⟩ s₁ ∧ (f x).run s₁ = .error e t := by
  induction l generalizing s with
  | nil => rw [Py.run_forM_nil] at h; cases h
  | cons x l ih =>
    rw [Py.run_forM_cons] at h
    cases hx : (f x).run s with
    | error e' t' =>
      rw [hx] at h
      cases h
      exact ⟨[], x, l, s, rfl, rfl, hx⟩
    | ok u s' =>
      rw [hx] at h
      obtain ⟨l₁, y, l₂, s₁, rfl, h1, h2⟩ := ih h
      exact ⟨x :: l₁, y, l₂, s₁, rfl, by rw [Py.run_forM_cons, hx]; exact h1, h2⟩

/-- The same for a loop over numbered elements. -/
theorem Py.forM_zipIdx_error {σ α : Type} {f : α × Nat → Py σ Unit} (l : List α) (k : Nat) {s t : σ} {e : Err}
    (h : ((l.zipIdx k).forM f).run s = .error e t) :
    ∃ l₁ x l₂ s₁, l = l₁ ++ x :: l₂ ∧ ((l₁.zipIdx k).forM f).run s = .ok ⟨⟩ s₁ ∧
      (f (x, k + l₁.length)).run s₁ = .error e t := by
  induction l generalizing s k with
  | nil => rw [List.zipIdx_nil, Py.run_forM_nil] at h; cases h
  | cons x l ih =>
    rw [List.zipIdx_cons, Py.run_forM_cons] at h
    cases hx : (f (x, k)).run s with
    | error e' t' =>
      rw [hx] at h
      cases h
      exact ⟨[], x, l, s, rfl, rfl, hx⟩
    | ok u s' =>
      rw [hx] at h
      obtain ⟨l₁, y, l₂, s₁, rfl, h1, h2⟩ := ih (k + 1) h
      refine ⟨x :: l₁, y, l₂, s₁, rfl, ?_, ?_⟩
      · rw [List.zipIdx_cons, Py.run_forM_cons, hx]
        exact h1
      · rw [List.length_cons, show k + (l₁.length + 1) = k + 1 + l₁.length by omega]
        exact h2

theorem genLin_error {env : Env} {f o : Coef → Coef} {h : Row} {m m' : LModel} {e : Err} (hu : m.names.Nodup)
    (hh : h ∈ m.rows) (hrm : h.removed = false) (he : (genLin env f o h).run m = .error e m') :
    m' = m ∧ (h.name = "" ∧ e = .valueError ∨ h.name ≠ "" ∧ (f h.coef).isNum = false ∧ e = .typeError) := by
  unfold genLin at he
  rw [Py.run_bind, updateCoef_run env hu hh] at he
  by_cases hne : h.name = ""
  · rw [if_pos hne] at he
    cases he
    exact ⟨rfl, .inl ⟨hne, rfl⟩⟩
  rw [if_neg hne] at he
  cases hf : f h.coef with
  | expr x =>
    rw [hf] at he
    cases he
    exact ⟨rfl, .inr ⟨hne, rfl, rfl⟩⟩
  | num q =>
    rw [hf] at he
    simp only [hrm, Bool.false_eq_true, if_false] at he
    cases he

/-- Adding a linear interaction under a name that is taken. -/
theorem addLin_taken (now : ℚ) (v : PVar) {n : String} (hne : n ≠ "") (c : Coef) {m : LModel} (h : n ∈ m.names) :
    (addInteraction now (.var v) (.str n) c.toPy (.num 1) .none .none).run m = .error .valueError m := by
  have hh : m.hasName n = true := (hasName_iff _ _).mpr h
  rw [addInteraction_run]
  have : addChecks now m (.var v) (.str n) c.toPy (.num 1) .none .none = .error .valueError := by
    cases c <;>
      simp [addChecks, PyTarget.truthy, checkCoef, Coef.toPy, addAttrs, addTs, getInfo, addName, PyName.truthy, hne, hh]
  rw [this]

theorem genQuad_error {env : Env} {f g o : Coef → Coef} {clk : Nat → ℚ} {J : Row} {m m' : LModel} {e : Err}
    (hm : m.Rect) (hu : m.names.Nodup) (hJ : J ∈ m.rows) (hrm : J.removed = false) {v w : PVar}
    (hi : J.inter = .quad v w) (he : (genQuad env f g o clk J).run m = .error e m') :
    (m' = m ∧ (J.name = "" ∧ e = .valueError ∨ J.name ≠ "" ∧ (f J.coef).isNum = false ∧ e = .typeError)) ∨
    (J.name ≠ "" ∧ (f J.coef).isNum = true ∧ e = .valueError ∧
      (addedName env v.label J.name (clk 0) ∈ m.names ∧
        m' = { m with rows := m.rows.map fun x => if x = J then withCoef env f x else x } ∨
      addedName env v.label J.name (clk 0) ∉ m.names ∧
        addedName env w.label J.name (clk 2) ∈ m.names ++ [addedName env v.label J.name (clk 0)] ∧
        ∃ r cols ats, AddedRow (g J.coef) v (addedName env v.label J.name (clk 0)) r ∧
          m' = { m with rows := (m.rows.map fun x => if x = J then withCoef env f x else x) ++ [r]
                        attrCols := cols, attrs := ats, length := m.length + 1 })) := by
  unfold genQuad at he
  rw [hi] at he
  simp only at he
  rw [Py.run_bind] at he
  have hup := updateCoef_run env hu hJ (f J.coef)
  by_cases hne : J.name = ""
  · rw [if_pos hne] at hup
    rw [hup] at he
    cases he
    exact .inl ⟨rfl, .inl ⟨hne, rfl⟩⟩
  rw [if_neg hne] at hup
  cases hf : f J.coef with
  | expr x =>
    rw [hf] at hup he
    simp only at hup
    rw [hup] at he
    cases he
    exact .inl ⟨rfl, .inr ⟨hne, rfl, rfl⟩⟩
  | num q =>
    rw [hf] at hup he
    simp only [hrm, Bool.false_eq_true, if_false] at hup
    have hmap : (m.rows.map fun x => if x = J then setCoef env q x else x) =
        m.rows.map fun x => if x = J then withCoef env f x else x := by
      apply List.map_congr_left
      intro x _
      by_cases hx : x = J
      · rw [if_pos hx, if_pos hx, hx, setCoef_eq hf]
      · rw [if_neg hx, if_neg hx]
    rw [hmap] at hup
    rw [hup] at he
    simp only at he
    have hr₁ : LModel.Rect { m with rows := m.rows.map fun x => if x = J then withCoef env f x else x } := by
      refine rect_same hm rfl (by simp) rfl rfl
    have hnames : LModel.names { m with rows := m.rows.map fun x => if x = J then withCoef env f x else x } = m.names :=
      map_ite_names fun _ => rfl
    refine .inr ⟨hne, rfl, ?_⟩
    rw [Py.run_bind] at he
    by_cases hn : addedName env v.label J.name (clk 0) ∈ m.names
    · rw [addLin_taken _ _ (addedName_ne _ _ _ _) _ (by rw [hnames]; exact hn)] at he
      cases he
      exact ⟨rfl, .inl ⟨hn, rfl⟩⟩
    obtain ⟨m₂, h₂⟩ := addLin_succeeds (clk 1) v (addedName_ne env v.label J.name (clk 0)) (g J.coef) hr₁
      (by rw [hnames]; exact hn)
    have hr₂ : m₂.Rect := by
      have := add_rect (clk 1) (.var v) (.str (addedName env v.label J.name (clk 0))) (g J.coef).toPy (.num 1)
        .none .none _ hr₁
      rw [h₂] at this
      exact this
    rw [h₂] at he
    simp only at he
    obtain ⟨r, cols, ats, hr, -, rfl⟩ := addLin_ok (addedName_ne _ _ _ _) h₂
    have hnames₂ : LModel.names { m with
        rows := (m.rows.map fun x => if x = J then withCoef env f x else x) ++ [r]
        attrCols := cols, attrs := ats, length := m.length + 1 } = m.names ++ [addedName env v.label J.name (clk 0)] := by
      have : (m.rows.map fun x => if x = J then withCoef env f x else x).map (·.name) = m.names := hnames
      simp only [LModel.names, List.map_append, this, List.map_cons, List.map_nil, hr.name]
    rw [Py.run_bind] at he
    by_cases hn₂ : addedName env w.label J.name (clk 2) ∈ m.names ++ [addedName env v.label J.name (clk 0)]
    · rw [addLin_taken _ _ (addedName_ne _ _ _ _) _ (by rw [hnames₂]; exact hn₂)] at he
      cases he
      exact ⟨rfl, .inr ⟨hn, hn₂, r, cols, ats, hr, rfl⟩⟩
    obtain ⟨m₃, h₃⟩ := addLin_succeeds (clk 3) w (addedName_ne env w.label J.name (clk 2)) (g J.coef) hr₂
      (by rw [hnames₂]; exact hn₂)
    rw [h₃] at he
    simp only [Py.run_modify] at he
    cases he

/-! ## The interactions in the middle of a conversion -/

/-- An interaction when those of `done` are converted: every active interaction has the new variables. -/
def leftRow (env : Env) (vt : VType) (f f₂ : Coef → Coef) (done : List Row) (r : Row) : Row :=
  if r.removed then r
  else if r ∈ done then
    { r with inter := r.inter.retype vt, coef := (match r.inter with | .lin _ => f | .quad _ _ => f₂) r.coef
             timestamp := some env.importTime, dirty := true }
  else { r with inter := r.inter.retype vt }

section
variable {env : Env} {vt : VType} {f f₂ : Coef → Coef} {d l rows : List Row} {r : Row}

theorem leftRow_name : (leftRow env vt f f₂ d r).name = r.name := by
  unfold leftRow; split <;> [rfl; (split <;> rfl)]

theorem leftRow_removed : (leftRow env vt f f₂ d r).removed = r.removed := by
  unfold leftRow; split <;> [rfl; (split <;> rfl)]

theorem leftRow_body : (leftRow env vt f f₂ d r).inter.body = r.inter.body := by
  unfold leftRow; split <;> [rfl; (split <;> exact Inter.body_retype _ _)]

theorem leftRow_active (hr : r.removed = false) (hd : r ∉ d) :
    leftRow env vt f f₂ d r = { r with inter := r.inter.retype vt } := by
  unfold leftRow; rw [if_neg (by simp [hr]), if_neg hd]

theorem leftRow_nil : leftRow env vt f f₂ [] r = retypeRow vt r := by
  unfold leftRow retypeRow
  split
  · rfl
  · rw [if_neg (by simp)]

theorem leftRow_names : (rows.map (leftRow env vt f f₂ d)).map (·.name) = rows.map (·.name) := by
  rw [List.map_map]
  exact List.map_congr_left fun r _ => leftRow_name

theorem leftRow_filter (b : Nat) : (rows.map (leftRow env vt f f₂ d)).filter (fun r => r.inter.body == b && !r.removed) =
    (activeBody b rows).map (leftRow env vt f f₂ d) := by
  rw [List.filter_map]
  congr 1
  unfold activeBody
  congr 1
  funext r
  simp only [Function.comp, leftRow_body, leftRow_removed]

/-- Converting further interactions. -/
theorem leftRow_step (hu : (rows.map (·.name)).Nodup) (φ : Coef → Coef)
    (hl : ∀ r ∈ l, r ∈ rows ∧ r.removed = false ∧ r ∉ d ∧ (match r.inter with | .lin _ => f | .quad _ _ => f₂) = φ) :
    (rows.map (leftRow env vt f f₂ d)).map
        (fun x => if x ∈ l.map (leftRow env vt f f₂ d) then withCoef env φ x else x) =
      rows.map (leftRow env vt f f₂ (d ++ l)) := by
  rw [List.map_map]
  apply List.map_congr_left
  intro r hr
  simp only [Function.comp]
  have hmem : leftRow env vt f f₂ d r ∈ l.map (leftRow env vt f f₂ d) ↔ r ∈ l := by
    constructor
    · intro h
      obtain ⟨r', hr', he⟩ := List.mem_map.mp h
      have : r'.name = r.name := by rw [← leftRow_name (r := r'), he, leftRow_name]
      rwa [← List.inj_on_of_nodup_map hu (hl r' hr').1 hr this]
    · exact fun h => List.mem_map.mpr ⟨r, h, rfl⟩
  by_cases h : r ∈ l
  · obtain ⟨-, h2, h3, h4⟩ := hl r h
    rw [if_pos (hmem.mpr h), leftRow_active h2 h3]
    unfold leftRow withCoef
    rw [if_neg (by simp [h2]), if_pos (by simp [h]), ← h4]
  · rw [if_neg fun h' => h (hmem.mp h')]
    unfold leftRow
    split
    · rfl
    · by_cases hd : r ∈ d
      · rw [if_pos hd, if_pos (by simp [hd])]
      · rw [if_neg hd, if_neg (by simp [hd, h])]

end

theorem activeBody_lin {rows : List Row} {r : Row} (h : r ∈ activeBody 1 rows) :
    r ∈ rows ∧ r.removed = false ∧ ∃ v, r.inter = .lin v := by
  obtain ⟨h1, h2⟩ := List.mem_filter.mp h
  simp only [Bool.and_eq_true, Bool.not_eq_true', beq_iff_eq] at h2
  refine ⟨h1, h2.2, ?_⟩
  cases hi : r.inter with
  | lin v => exact ⟨v, rfl⟩
  | quad v w => rw [hi] at h2; simp [Inter.body] at h2

theorem activeBody_quad {rows : List Row} {r : Row} (h : r ∈ activeBody 2 rows) :
    r ∈ rows ∧ r.removed = false ∧ ∃ v w, r.inter = .quad v w := by
  obtain ⟨h1, h2⟩ := List.mem_filter.mp h
  simp only [Bool.and_eq_true, Bool.not_eq_true', beq_iff_eq] at h2
  refine ⟨h1, h2.2, ?_⟩
  cases hi : r.inter with
  | lin v => rw [hi] at h2; simp [Inter.body] at h2
  | quad v w => exact ⟨v, w, rfl⟩

/-- The variable loop of a conversion changes only the arrays, also when it raises, and then an array cannot be created. -/
theorem retypeLoop_error (l : List String) {m m' : LModel} {e : Err} (hl : ∀ n ∈ l, n ∈ dkeys m.vars)
    (h : (l.forM retypeVar).run m = .error e m') :
    ∃ vs, m' = { m with vars := vs } ∧ dkeys vs = dkeys m.vars ∧
      ∃ n a, dget m.vars n = some a ∧ arrayCreate n (a.shape.map Int.ofNat) m.mtype.vtype = .error e := by
  obtain ⟨l₁, n, l₂, s₁, rfl, h1, h2⟩ := Py.forM_error l h
  obtain ⟨vs, rfl, hk, hout, hin⟩ := retypeLoop_ok _ h1
  rw [retypeVar_run] at h2
  have hn : n ∈ dkeys vs := by rw [hk]; exact hl n (by simp)
  obtain ⟨a, ha⟩ := (dget_isSome_iff _ _).mpr hn
  simp only [ha] at h2
  cases hc : arrayCreate n (a.shape.map Int.ofNat) m.mtype.vtype with
  | ok a' => simp only [hc] at h2; cases h2
  | error e' =>
    simp only [hc] at h2
    cases h2
    refine ⟨vs, rfl, hk, n, ?_⟩
    by_cases hm : n ∈ l₁
    · obtain ⟨b, b', g1, g2, g3⟩ := hin n hm
      rw [ha] at g2
      cases g2
      rw [arrayCreate_shape g3] at hc
      rw [hc] at g3
      cases g3
    · exact ⟨a, by rw [← hout n hm]; exact ha, hc⟩

/-! ## The whole conversion -/

namespace Props

/-- What a conversion needs of an interaction: a non-empty name and a numeric coefficient. -/
def Fine (r : Row) : Prop := r.name ≠ "" ∧ ∃ q, r.coef = .num q

/-- The order in which a conversion treats the interactions: the active linear ones, then the active quadratic ones. -/
def conversionOrder (m : LModel) : List Row :=
  (m.rows.filter fun r => r.inter.key1.isNone && !r.removed) ++ (m.rows.filter fun r => r.inter.key1.isSome && !r.removed)

/-- The new interactions of a conversion: for each active quadratic interaction one for each of its variables, with the
old coefficient of the interaction. -/
def conversionAdds (vt : VType) (m : LModel) : List (PVar × Coef) :=
  m.rows.flatMap fun r => if r.removed then [] else match r.inter with
    | .lin _ => []
    | .quad v w => [(⟨vt, v.label⟩, r.coef), (⟨vt, w.label⟩, r.coef)]

/-- The number of quadratic interactions. -/
def quads (rs : List Row) : Nat := (rs.filter fun r => r.inter.key1.isSome).length

/-- What a conversion to the type `mt` that raises `e` leaves of `m`. The interactions of `done` are converted, `bad` is the
one that raises, `news` are the interactions added so far. -/
structure Stopped (env : Env) (clk : Nat → ℚ) (mt : MType) (f o f₂ g₂ o₂ : Coef → Coef) (m : LModel) (e : Err)
    (m' : LModel) (done : List Row) (bad : Row) (rest news : List Row) : Prop where
  arrays : ∀ n a, dget m.vars n = some a → ∃ a', dget m'.vars n = some a' ∧
    arrayCreate n (a.shape.map Int.ofNat) mt.vtype = .ok a'
  order : conversionOrder m = done ++ bad :: rest
  fine : ∀ r ∈ done, Fine r
  offset : m'.offset = done.foldl (fun c r => c.add ((match r.inter with | .lin _ => o | .quad _ _ => o₂) r.coef)) m.offset
  adds : List.Forall₂ (fun (p : PVar × Coef) r => r.inter = .lin p.1 ∧ r.coef = g₂ p.2 ∧ r.scale = .num 1 ∧ r.removed = false)
    ((conversionAdds mt.vtype m).take news.length) news
  names : news.map (·.name) = (conversionNames env clk m).take news.length
  reason :
    (¬ Fine bad ∧ e = (if bad.name = "" then .valueError else .typeError) ∧ news.length = 2 * quads done ∧
      m'.rows = m.rows.map (leftRow env mt.vtype f f₂ done) ++ news) ∨
    (Fine bad ∧ bad.inter.key1.isSome ∧ e = .valueError ∧
      (news.length = 2 * quads done ∨ news.length = 2 * quads done + 1) ∧
      (∃ n, (conversionNames env clk m)[news.length]? = some n ∧ n ∈ m.names ++ news.map (·.name)) ∧
      m'.rows = m.rows.map (leftRow env mt.vtype f f₂ (done ++ [bad])) ++ news)

theorem conversionOrder_eq (m : LModel) : conversionOrder m = activeBody 1 m.rows ++ activeBody 2 m.rows := by
  unfold conversionOrder activeBody
  congr 2
  · funext r
    cases r.inter <;> simp [Inter.key1, Inter.body]
  · funext r
    cases r.inter <;> simp [Inter.key1, Inter.body]

theorem conversionAdds_eq (vt : VType) (m : LModel) :
    conversionAdds vt m = (activeBody 2 m.rows).flatMap fun r => match r.inter with
      | .lin _ => []
      | .quad v w => [(⟨vt, v.label⟩, r.coef), (⟨vt, w.label⟩, r.coef)] := by
  unfold conversionAdds activeBody
  induction m.rows with
  | nil => rfl
  | cons r rows ih =>
    rw [List.flatMap_cons, List.filter_cons, ih]
    by_cases hrm : r.removed = true
    · simp [hrm]
    · cases hi : r.inter with
      | lin v => simp [hi, Inter.body]
      | quad v w => simp [hi, Inter.body, hrm]

theorem quads_lin {rs : List Row} (h : ∀ r ∈ rs, ∃ v, r.inter = .lin v) : quads rs = 0 := by
  unfold quads
  rw [List.length_eq_zero_iff, List.filter_eq_nil_iff]
  intro r hr
  obtain ⟨v, hv⟩ := h r hr
  simp [hv, Inter.key1]

theorem quads_quad {rs : List Row} (h : ∀ r ∈ rs, ∃ v w, r.inter = .quad v w) : quads rs = rs.length := by
  unfold quads
  rw [List.filter_eq_self.mpr]
  intro r hr
  obtain ⟨v, w, hv⟩ := h r hr
  simp [hv, Inter.key1]

theorem quads_append (a b : List Row) : quads (a ++ b) = quads a + quads b := by simp [quads]

theorem genConv_error {mt : MType} {f o f₂ g₂ o₂ : Coef → Coef} {clk : Nat → ℚ} {env : Env} {m m' : LModel} {e : Err}
    (hf : ∀ c, (f c).isNum = c.isNum) (hf₂ : ∀ c, (f₂ c).isNum = c.isNum)
    (hm : m.Rect) (hu : m.names.Nodup) (h : (genConv env mt f o f₂ g₂ o₂ clk).run m = .error e m') :
    (m'.mtype = mt ∧ dkeys m'.vars = dkeys m.vars ∧ m'.deleted = m.deleted ∧ m'.fixed = m.fixed ∧
      m'.constraints = m.constraints ∧ m'.id = m.id) ∧
    ((m'.rows = m.rows ∧ m'.offset = m.offset ∧ ∃ n a, dget m.vars n = some a ∧ ¬ Creatable n a.shape) ∨
      ∃ done bad rest news, Stopped env clk mt f o f₂ g₂ o₂ m e m' done bad rest news) := by
  have hfine : ∀ r : Row, Fine r ↔ r.name ≠ "" ∧ r.coef.isNum = true := fun r => by
    unfold Fine; rw [Coef.isNum_iff]
  unfold genConv at h
  rw [Py.run_bind, Py.run_modify] at h
  simp only at h
  -- the variables
  cases h₀ : ((dkeys m.vars).forM retypeVar).run { m with mtype := mt } with
  | error e' m₀ =>
    have : updateVariablesType.run { m with mtype := mt } = .error e' m₀ := by
      unfold updateVariablesType
      rw [Py.run_bind, Py.run_get]
      simp only
      rw [Py.run_bind, h₀]
    rw [Py.run_bind, this] at h
    cases h
    obtain ⟨vs, rfl, hk, n, a, ha, hc⟩ := retypeLoop_error (m := { m with mtype := mt }) _ (fun n hn => hn) h₀
    refine ⟨⟨rfl, hk, rfl, rfl, rfl, rfl⟩, .inl ⟨rfl, rfl, n, a, ha, fun hcr => ?_⟩⟩
    obtain ⟨a', ha'⟩ := arrayCreate_of_creatable mt.vtype hcr
    simp only at hc
    rw [hc] at ha'
    cases ha'
  | ok u m₀ =>
  obtain ⟨vs, rfl, hk, -, hin⟩ := retypeLoop_ok _ h₀
  have harr : ∀ n a, dget m.vars n = some a → ∃ a', dget vs n = some a' ∧
      arrayCreate n (a.shape.map Int.ofNat) mt.vtype = .ok a' := by
    intro n a ha
    obtain ⟨b, a', hb, ha', hc⟩ := hin n ((dget_isSome_iff _ _).mp ⟨a, ha⟩)
    simp only at hb
    rw [ha] at hb
    cases hb
    exact ⟨a', ha', hc⟩
  have hmk : LModel.Rect { m with mtype := mt, vars := vs } := rect_same hm rfl rfl rfl rfl
  have h₁ : updateVariablesType.run { m with mtype := mt } =
      .ok ⟨⟩ { m with mtype := mt, vars := vs, rows := m.rows.map (leftRow env mt.vtype f f₂ []) } := by
    have : leftRow env mt.vtype f f₂ [] = retypeRow mt.vtype := funext fun r => leftRow_nil
    rw [this]
    unfold updateVariablesType
    rw [Py.run_bind, Py.run_get]
    simp only
    rw [Py.run_bind, h₀]
    simp only
    rw [Py.run_bind, makeFrame_rect hmk]
    simp only
    rw [Py.run_modify]
    rfl
  have hr₁ : LModel.Rect { m with mtype := mt, vars := vs, rows := m.rows.map (leftRow env mt.vtype f f₂ []) } :=
    rect_same hm rfl (by simp) rfl rfl
  rw [Py.run_bind, h₁] at h
  simp only at h
  rw [Py.run_bind, selectBody_rect 1 hr₁] at h
  simp only at h
  rw [leftRow_filter, Py.run_bind] at h
  -- the linear interactions
  have hu₁ : ∀ {d : List Row} {k : LModel}, k.rows = m.rows.map (leftRow env mt.vtype f f₂ d) → k.names.Nodup := by
    intro d k hk
    unfold LModel.names
    rw [hk, leftRow_names]
    exact hu
  have hnd : ∀ b, ((activeBody b m.rows).map (·.name)).Nodup := fun b => names_sublist hu
  have hlinstep : ∀ l : List Row, (∀ r ∈ l, r ∈ activeBody 1 m.rows) →
      (m.rows.map (leftRow env mt.vtype f f₂ [])).map
        (fun x => if x ∈ l.map (leftRow env mt.vtype f f₂ []) then withCoef env f x else x) =
      m.rows.map (leftRow env mt.vtype f f₂ l) := by
    intro l hl
    refine (leftRow_step hu f fun r hr => ?_).trans (by simp)
    obtain ⟨h1, h2, v, hv⟩ := activeBody_lin (hl r hr)
    exact ⟨h1, h2, by simp, by rw [hv]⟩
  have hlinfold : ∀ (l : List Row) (z : Coef), (∀ r ∈ l, r ∈ activeBody 1 m.rows) →
      (l.map (leftRow env mt.vtype f f₂ [])).foldl (fun a h => a.add (o h.coef)) z =
      l.foldl (fun c r => c.add ((match r.inter with | .lin _ => o | .quad _ _ => o₂) r.coef)) z := by
    intro l z hl
    rw [List.foldl_map]
    apply List.foldl_ext
    intro a r hr
    obtain ⟨h1, h2, v, hv⟩ := activeBody_lin (hl r hr)
    rw [leftRow_active h2 (by simp), hv]
  have hcoef₁ : ∀ r ∈ activeBody 1 m.rows, (leftRow env mt.vtype f f₂ [] r).coef = r.coef := by
    intro r hr
    rw [leftRow_active (activeBody_lin hr).2.1 (by simp)]
  cases hlin : (((activeBody 1 m.rows).map (leftRow env mt.vtype f f₂ [])).forM (genLin env f o)).run
      { m with mtype := mt, vars := vs, rows := m.rows.map (leftRow env mt.vtype f f₂ []) } with
  | error e' t =>
    rw [hlin] at h
    cases h
    obtain ⟨l₁, x, l₂, s₁, hsplit, hok, herr⟩ := Py.forM_error _ hlin
    obtain ⟨hs₁, t₁, hsp, rfl, ht₁⟩ := List.map_eq_append_iff.mp hsplit
    obtain ⟨hb, hs₂, rfl, rfl, rfl⟩ := List.map_eq_cons_iff.mp ht₁
    have hsub : ∀ r ∈ hs₁, r ∈ activeBody 1 m.rows := fun r hr => by rw [hsp]; simp [hr]
    have hbm : hb ∈ activeBody 1 m.rows := by rw [hsp]; simp
    have hmem₁ : ∀ r ∈ hs₁.map (leftRow env mt.vtype f f₂ []), r ∈ m.rows.map (leftRow env mt.vtype f f₂ []) := by
      intro r hr
      obtain ⟨r', hr', rfl⟩ := List.mem_map.mp hr
      exact List.mem_map.mpr ⟨r', (activeBody_lin (hsub r' hr')).1, rfl⟩
    have hn₁ := hnd 1
    rw [hsp, List.map_append, List.nodup_append] at hn₁
    obtain ⟨rfl, hgood⟩ := genLin_loop_ok _ (hu₁ rfl) hmem₁ (by rw [leftRow_names]; exact hn₁.1) hok
    simp only [hlinstep hs₁ hsub, hlinfold hs₁ _ hsub] at herr
    have hnb : hb ∉ hs₁ := fun hc => hn₁.2.2 _ (List.mem_map.mpr ⟨hb, hc, rfl⟩) hb.name (by simp) rfl
    obtain ⟨hbr, hbrm, v, hbv⟩ := activeBody_lin hbm
    have heq : leftRow env mt.vtype f f₂ [] hb = leftRow env mt.vtype f f₂ hs₁ hb := by
      rw [leftRow_active hbrm (by simp), leftRow_active hbrm hnb]
    rw [heq] at herr
    obtain ⟨rfl, hbad⟩ := genLin_error (hu₁ rfl) (List.mem_map.mpr ⟨hb, hbr, rfl⟩) (by rw [leftRow_removed]; exact hbrm) herr
    rw [← heq, leftRow_name, hcoef₁ hb hbm, hf] at hbad
    refine ⟨⟨rfl, hk, rfl, rfl, rfl, rfl⟩, .inr ⟨hs₁, hb, hs₂ ++ activeBody 2 m.rows, [], harr, ?_, ?_, rfl, ?_, rfl, .inl ⟨?_, ?_, ?_, ?_⟩⟩⟩
    · rw [conversionOrder_eq, hsp]
      simp
    · intro r hr
      have := hgood (leftRow env mt.vtype f f₂ [] r) (List.mem_map.mpr ⟨r, hr, rfl⟩)
      rw [leftRow_name, hcoef₁ r (hsub r hr), hf] at this
      exact (hfine r).mpr this
    · simp
    · rw [hfine]
      rcases hbad with ⟨h1, -⟩ | ⟨-, h2, -⟩
      · exact fun hc => hc.1 h1
      · rw [h2]; simp
    · rcases hbad with ⟨h1, h2⟩ | ⟨h1, -, h2⟩
      · rw [if_pos h1, h2]
      · rw [if_neg h1, h2]
    · rw [quads_lin fun r hr => (activeBody_lin (hsub r hr)).2.2]
      rfl
    · simp
  | ok u t =>
  rw [hlin] at h
  simp only at h
  have hmem₁ : ∀ r ∈ (activeBody 1 m.rows).map (leftRow env mt.vtype f f₂ []), r ∈ m.rows.map (leftRow env mt.vtype f f₂ []) := by
    intro r hr
    obtain ⟨r', hr', rfl⟩ := List.mem_map.mp hr
    exact List.mem_map.mpr ⟨r', (activeBody_lin hr').1, rfl⟩
  have hrt : t.Rect := by
    have := Py.Preserves.forM (I := LModel.Rect) (l := (activeBody 1 m.rows).map (leftRow env mt.vtype f f₂ []))
      (fun h _ => genLin_rect env f o h) _ hr₁
    rw [hlin] at this
    exact this
  obtain ⟨ht, hgood⟩ := genLin_loop_ok _ (hu₁ rfl) hmem₁ (by rw [leftRow_names]; exact hnd 1) hlin
  simp only [hlinstep _ fun r hr => hr, hlinfold _ _ fun r hr => hr] at ht
  have hgood₁ : ∀ r ∈ activeBody 1 m.rows, Fine r := by
    intro r hr
    have := hgood (leftRow env mt.vtype f f₂ [] r) (List.mem_map.mpr ⟨r, hr, rfl⟩)
    rw [leftRow_name, hcoef₁ r hr, hf] at this
    exact (hfine r).mpr this
  clear hgood hmem₁ hlin
  rw [Py.run_bind, selectBody_rect 2 hrt] at h
  simp only at h
  generalize hA : activeBody 1 m.rows = A at *
  have hAlin : ∀ r ∈ A, r ∈ m.rows ∧ r.removed = false ∧ ∃ v, r.inter = .lin v := fun r hr => activeBody_lin (hA ▸ hr)
  have htrows : t.rows = m.rows.map (leftRow env mt.vtype f f₂ A) := by rw [ht]
  rw [htrows, leftRow_filter] at h
  -- the quadratic interactions
  obtain ⟨l₁, x, l₂, s₁, hsplit, hok, herr⟩ := Py.forM_zipIdx_error _ 0 h
  obtain ⟨js₁, t₁, hsp, rfl, ht₁⟩ := List.map_eq_append_iff.mp hsplit
  obtain ⟨J, js₂, rfl, rfl, rfl⟩ := List.map_eq_cons_iff.mp ht₁
  have hsub : ∀ r ∈ js₁, r ∈ activeBody 2 m.rows := fun r hr => by rw [hsp]; simp [hr]
  have hJm : J ∈ activeBody 2 m.rows := by rw [hsp]; simp
  have hnotA : ∀ r ∈ activeBody 2 m.rows, r ∉ A := by
    intro r hr hc
    obtain ⟨-, -, v, hv⟩ := hAlin r hc
    obtain ⟨-, -, v', w', hv'⟩ := activeBody_quad hr
    rw [hv] at hv'
    cases hv'
  have hact : ∀ r ∈ activeBody 2 m.rows, leftRow env mt.vtype f f₂ A r = { r with inter := r.inter.retype mt.vtype } :=
    fun r hr => leftRow_active (activeBody_quad hr).2.1 (hnotA r hr)
  have hn₂ := hnd 2
  rw [hsp, List.map_append, List.nodup_append] at hn₂
  have hJn : J ∉ js₁ := fun hc => hn₂.2.2 _ (List.mem_map.mpr ⟨J, hc, rfl⟩) J.name (by simp) rfl
  have hrs₁ : s₁.Rect := by
    have := Py.Preserves.forM (I := LModel.Rect) (l := (js₁.map (leftRow env mt.vtype f f₂ A)).zipIdx 0)
      (fun p _ => genQuad_rect env f₂ g₂ o₂ (fun i => clk (4 * p.2 + i)) p.1) _ hrt
    rw [hok] at this
    exact this
  have htn : t.names = m.names := by
    unfold LModel.names
    rw [htrows, leftRow_names]
  obtain ⟨news, cols, ats, hs₁, hadd, hnod, hgood, hnn⟩ := genQuad_loop_ok _ 0 (by rw [htn]; exact hu)
    (by
      intro r hr
      obtain ⟨r', hr', rfl⟩ := List.mem_map.mp hr
      rw [htrows]
      exact List.mem_map.mpr ⟨r', (activeBody_quad (hsub r' hr')).1, rfl⟩)
    (by rw [leftRow_names]; exact hn₂.1) hok
  have hstep : ∀ l : List Row, (∀ r ∈ l, r ∈ activeBody 2 m.rows) → ∀ d, (∀ r ∈ l, r ∉ d) →
      (m.rows.map (leftRow env mt.vtype f f₂ d)).map
        (fun x => if x ∈ l.map (leftRow env mt.vtype f f₂ d) then withCoef env f₂ x else x) =
      m.rows.map (leftRow env mt.vtype f f₂ (d ++ l)) := by
    intro l hl d hd
    refine leftRow_step hu f₂ fun r hr => ?_
    obtain ⟨h1, h2, v, w, hv⟩ := activeBody_quad (hl r hr)
    exact ⟨h1, h2, hd r hr, by rw [hv]⟩
  have hfold : (js₁.map (leftRow env mt.vtype f f₂ A)).foldl (fun a h => a.add (o₂ h.coef)) t.offset =
      (A ++ js₁).foldl (fun c r => c.add ((match r.inter with | .lin _ => o | .quad _ _ => o₂) r.coef)) m.offset := by
    rw [List.foldl_append, List.foldl_map, ht]
    apply List.foldl_ext
    intro a r hr
    rw [hact r (hsub r hr)]
    obtain ⟨-, -, v, w, hv⟩ := activeBody_quad (hsub r hr)
    simp only [hv]
  rw [htrows, hstep js₁ hsub A fun r hr => hnotA r (hsub r hr), hfold] at hs₁
  have hgood₂ : ∀ r ∈ js₁, Fine r := by
    intro r hr
    have := hgood (leftRow env mt.vtype f f₂ A r) (List.mem_map.mpr ⟨r, hr, rfl⟩)
    rw [hact r (hsub r hr), hf₂] at this
    exact (hfine r).mpr this
  obtain ⟨hJr, hJrm, v, w, hJv⟩ := activeBody_quad hJm
  have hJnot : J ∉ A ++ js₁ := by
    rw [List.mem_append, not_or]
    exact ⟨hnotA J hJm, hJn⟩
  have hJeq : leftRow env mt.vtype f f₂ A J = leftRow env mt.vtype f f₂ (A ++ js₁) J := by
    rw [hact J hJm, leftRow_active hJrm hJnot]
  rw [hJeq] at herr
  set J' := leftRow env mt.vtype f f₂ (A ++ js₁) J with hJ'
  have hJ'' : J' = { J with inter := .quad ⟨mt.vtype, v.label⟩ ⟨mt.vtype, w.label⟩ } := by
    rw [hJ', leftRow_active hJrm hJnot, hJv]
    rfl
  have hs₁r : s₁.rows = m.rows.map (leftRow env mt.vtype f f₂ (A ++ js₁)) ++ news := by rw [hs₁]
  have hs₁n : s₁.names = m.names ++ news.map (·.name) := by
    unfold LModel.names
    rw [hs₁r, List.map_append, leftRow_names]
  have hmemJ : J' ∈ s₁.rows := by
    rw [hs₁r]
    exact List.mem_append_left _ (List.mem_map.mpr ⟨J, hJr, rfl⟩)
  have hcases := genQuad_error hrs₁ (by rw [hs₁n, ← htn]; exact hnod) hmemJ (by rw [hJ'']; exact hJrm)
    (v := ⟨mt.vtype, v.label⟩) (w := ⟨mt.vtype, w.label⟩) (by rw [hJ'']) herr
  -- the rows when `J` is converted as well
  have hrowsJ : (s₁.rows.map fun x => if x = J' then withCoef env f₂ x else x) =
      m.rows.map (leftRow env mt.vtype f f₂ (A ++ js₁ ++ [J])) ++ news := by
    rw [hs₁r, List.map_append, ← hstep [J] (by simpa using hJm) (A ++ js₁) (by simpa using hJnot)]
    congr 1
    · simp only [List.map_cons, List.map_nil, List.mem_singleton, hJ']
    · have : ∀ r ∈ news, r ≠ J' := by
        rintro r hr rfl
        have h1 := (List.nodup_append.mp hnod).2.2 J'.name (by
          rw [htn, hJ', leftRow_name]
          exact List.mem_map.mpr ⟨J, hJr, rfl⟩) J'.name (List.mem_map.mpr ⟨J', hr, rfl⟩)
        exact h1 rfl
      conv_rhs => rw [← List.map_id news]
      apply List.map_congr_left
      intro r hr
      rw [if_neg (this r hr)]
      rfl
  have hquadlen : quads (A ++ js₁) = js₁.length := by
    rw [quads_append, quads_lin fun r hr => (hAlin r hr).2.2, quads_quad fun r hr => (activeBody_quad (hsub r hr)).2.2]
    simp
  have hadd' : (js₁.map (leftRow env mt.vtype f f₂ A)).flatMap (fun J => match J.inter with
          | .lin _ => []
          | .quad v w => [(v, J.coef), (w, J.coef)]) = js₁.flatMap fun r => match r.inter with
      | .lin _ => []
      | .quad v w => [(⟨mt.vtype, v.label⟩, r.coef), (⟨mt.vtype, w.label⟩, r.coef)] := by
    rw [List.flatMap_map]
    apply List.flatMap_congr
    intro r hr
    rw [hact r (hsub r hr)]
    obtain ⟨-, -, v, w, hv⟩ := activeBody_quad (hsub r hr)
    simp only [hv, Inter.retype]
  have hlen : news.length = 2 * js₁.length := by
    rw [← hadd.length_eq]
    refine (flatMap_pair_length _ ?_).trans (by rw [List.length_map])
    intro r hr
    obtain ⟨r', hr', rfl⟩ := List.mem_map.mp hr
    obtain ⟨-, -, v, w, hv⟩ := activeBody_quad (hsub r' hr')
    rw [leftRow_body, hv]
    rfl
  replace hadd : List.Forall₂ _ ((js₁.map (leftRow env mt.vtype f f₂ A)).flatMap (fun J => match J.inter with
          | .lin _ => []
          | .quad v w => [(v, J.coef), (w, J.coef)])) news := hadd
  rw [hadd'] at hadd
  have hnames : ∀ (js : List Row) (k : Nat), (∀ r ∈ js, r ∈ activeBody 2 m.rows) →
      addedNames env clk (js.map (leftRow env mt.vtype f f₂ A)) k = addedNames env clk js k := by
    intro js k hjs
    unfold addedNames
    rw [List.zipIdx_map, List.flatMap_map]
    apply List.flatMap_congr
    rintro ⟨r, i⟩ hr
    have hr' := hjs r (List.fst_mem_of_mem_zipIdx hr)
    obtain ⟨-, -, v, w, hv⟩ := activeBody_quad hr'
    simp only [Prod.map, id, hact r hr', hv, Inter.retype]
  rw [hnames js₁ 0 hsub] at hnn
  have hall : conversionNames env clk m = news.map (·.name) ++ ([addedName env v.label J.name (clk (4 * js₁.length)),
      addedName env w.label J.name (clk (4 * js₁.length + 2))] ++ addedNames env clk js₂ (js₁.length + 1)) := by
    rw [conversionNames_eq, hsp, hnn]
    simp [addedNames, List.zipIdx_append, List.zipIdx_cons, hJv]
  have hadds : conversionAdds mt.vtype m = (js₁.flatMap fun r => match r.inter with
      | .lin _ => []
      | .quad v w => [(⟨mt.vtype, v.label⟩, r.coef), (⟨mt.vtype, w.label⟩, r.coef)]) ++
      ([(⟨mt.vtype, v.label⟩, J.coef), (⟨mt.vtype, w.label⟩, J.coef)] ++ js₂.flatMap fun r => match r.inter with
      | .lin _ => []
      | .quad v w => [(⟨mt.vtype, v.label⟩, r.coef), (⟨mt.vtype, w.label⟩, r.coef)]) := by
    rw [conversionAdds_eq, hsp]
    simp [hJv]
  have horder : conversionOrder m = (A ++ js₁) ++ J :: js₂ := by
    rw [conversionOrder_eq, hsp, hA, List.append_assoc]
  have hdone : ∀ r ∈ A ++ js₁, Fine r := by
    intro r hr
    rcases List.mem_append.mp hr with hr | hr
    · exact hgood₁ r hr
    · exact hgood₂ r hr
  have hrel : List.Forall₂ (fun (p : PVar × Coef) (r : Row) =>
      r.inter = .lin p.1 ∧ r.coef = g₂ p.2 ∧ r.scale = .num 1 ∧ r.removed = false)
      (js₁.flatMap fun r => match r.inter with
      | .lin _ => []
      | .quad v w => [(⟨mt.vtype, v.label⟩, r.coef), (⟨mt.vtype, w.label⟩, r.coef)]) news :=
    hadd.imp fun p r ⟨_, _, hr⟩ => ⟨hr.inter, hr.coef, hr.scale, hr.removed⟩
  have hfl := hadd.length_eq
  have hJname : J'.name = J.name := by rw [hJ'']
  have hJcoef : J'.coef = J.coef := by rw [hJ'']
  simp only [hJname, hJcoef, hf₂, hs₁n, Nat.zero_add] at hcases
  have hrest : s₁.mtype = mt ∧ dkeys s₁.vars = dkeys m.vars ∧ s₁.deleted = m.deleted ∧ s₁.fixed = m.fixed ∧
      s₁.constraints = m.constraints ∧ s₁.id = m.id := by
    rw [hs₁, ht]
    exact ⟨rfl, hk, rfl, rfl, rfl, rfl⟩
  have hs₁v : s₁.vars = vs := by rw [hs₁, ht]
  have hs₁o : s₁.offset = (A ++ js₁).foldl
      (fun c r => c.add ((match r.inter with | .lin _ => o | .quad _ _ => o₂) r.coef)) m.offset := by rw [hs₁]
  rcases hcases with ⟨rfl, hbad⟩ | ⟨hne, hnum, rfl, hclash⟩
  · refine ⟨hrest, .inr ⟨A ++ js₁, J, js₂, news, by rw [hs₁v]; exact harr, horder, hdone, hs₁o, ?_, ?_, .inl ⟨?_, ?_, ?_, hs₁r⟩⟩⟩
    · rw [hadds, List.take_append_of_le_length hfl.ge, List.take_of_length_le hfl.le]
      exact hrel
    · rw [hall, List.take_append_of_le_length (by simp), List.take_of_length_le (by simp)]
    · rw [hfine]
      rcases hbad with ⟨h1, -⟩ | ⟨-, h2, -⟩
      · exact fun hc => hc.1 h1
      · rw [h2]; simp
    · rcases hbad with ⟨h1, h2⟩ | ⟨h1, -, h2⟩
      · rw [if_pos h1, h2]
      · rw [if_neg h1, h2]
    · rw [hquadlen, hlen]
  · have hJfine := (hfine J).mpr ⟨hne, hnum⟩
    have hJq : J.inter.key1.isSome = true := by rw [hJv]; rfl
    rcases hclash with ⟨hin, rfl⟩ | ⟨hnin, hin, r, c', a', hr, rfl⟩
    · refine ⟨hrest, .inr ⟨A ++ js₁, J, js₂, news, by simp only [hs₁v]; exact harr, horder, hdone, hs₁o, ?_, ?_,
        .inr ⟨hJfine, hJq, rfl, .inl (by rw [hquadlen, hlen]), ⟨_, ?_, hin⟩, ?_⟩⟩⟩
      · rw [hadds, List.take_append_of_le_length hfl.ge, List.take_of_length_le hfl.le]
        exact hrel
      · rw [hall, List.take_append_of_le_length (by simp), List.take_of_length_le (by simp)]
      · rw [hall, List.getElem?_append_right (by simp)]
        simp
      · simp only [hrowsJ]
    · refine ⟨hrest, .inr ⟨A ++ js₁, J, js₂, news ++ [r], by simp only [hs₁v]; exact harr, horder, hdone, hs₁o, ?_, ?_,
        .inr ⟨hJfine, hJq, rfl, .inr (by rw [hquadlen, List.length_append, hlen]; rfl), ⟨addedName env w.label J.name (clk (4 * js₁.length + 2)), ?_, ?_⟩, ?_⟩⟩⟩
      · rw [hadds, List.take_append, List.take_of_length_le (by simp [hfl])]
        have : (news ++ [r]).length - (js₁.flatMap fun r => match r.inter with
          | .lin _ => []
          | .quad v w => [((⟨mt.vtype, v.label⟩ : PVar), r.coef), (⟨mt.vtype, w.label⟩, r.coef)]).length = 1 := by
          rw [hfl, List.length_append]
          simp
        rw [this]
        exact List.rel_append hrel (.cons ⟨hr.inter, hr.coef, hr.scale, hr.removed⟩ .nil)
      · rw [hall, List.take_append, List.take_of_length_le (by simp), List.map_append]
        congr 1
        simp [hr.name]
      · rw [hall, List.getElem?_append_right (by simp)]
        simp
      · rw [List.map_append, ← List.append_assoc]
        simpa only [List.map_cons, List.map_nil, hr.name, List.length_map] using hin
      · simp only [hrowsJ, List.append_assoc]

variable {m m' : LModel} {env : Env} {clk : Nat → ℚ} {e : Err}

/-- What `to_ising` leaves when it raises, for every model with a well-formed table and different names. The type, and
unless an array cannot be created again the variables of all active interactions, are switched. The interactions before the
one that raises are converted and their part of the offset is added. That interaction itself is converted only if the
reason is a name that is taken, without its part of the offset. -/
theorem C37_left_toIsing (hm : m.Rect) (hu : m.names.Nodup) (h : (toIsing env clk).run m = .error e m') :
    (m'.mtype = .ising ∧ dkeys m'.vars = dkeys m.vars ∧ m'.deleted = m.deleted ∧ m'.fixed = m.fixed ∧
      m'.constraints = m.constraints ∧ m'.id = m.id) ∧
    ((m'.rows = m.rows ∧ m'.offset = m.offset ∧ ∃ n a, dget m.vars n = some a ∧ ¬ Creatable n a.shape) ∨
      ∃ done bad rest news, Stopped env clk .ising (·.mul (.num (1/2))) (·.mul (.num (1/2))) (·.mul (.num (1/4)))
        (·.mul (.num (1/4))) (·.mul (.num (1/4))) m e m' done bad rest news) := by
  rw [toIsing_run] at h
  split at h
  · cases h
  · exact genConv_error (fun c => by cases c <;> rfl) (fun c => by cases c <;> rfl) hm hu h

/-- The same for `to_qubo`. -/
theorem C37_left_toQubo (hm : m.Rect) (hu : m.names.Nodup) (h : (toQubo env clk).run m = .error e m') :
    (m'.mtype = .qubo ∧ dkeys m'.vars = dkeys m.vars ∧ m'.deleted = m.deleted ∧ m'.fixed = m.fixed ∧
      m'.constraints = m.constraints ∧ m'.id = m.id) ∧
    ((m'.rows = m.rows ∧ m'.offset = m.offset ∧ ∃ n a, dget m.vars n = some a ∧ ¬ Creatable n a.shape) ∨
      ∃ done bad rest news, Stopped env clk .qubo (·.mul (.num 2)) (·.mul (.num (-1))) (·.mul (.num 4))
        (·.mul (.num (-2))) id m e m' done bad rest news) := by
  rw [toQubo_run] at h
  split at h
  · cases h
  · exact genConv_error (fun c => by cases c <;> rfl) (fun c => by cases c <;> rfl) hm hu h

theorem retypeLoop_mtype (l : List String) (m : LModel) : ((l.forM retypeVar).run m).state.mtype = m.mtype := by
  refine Py.Preserves.forM (I := fun k => k.mtype = m.mtype) (fun n _ k hk => ?_) m rfl
  rw [retypeVar_run]
  split
  · exact hk
  · split <;> exact hk

/-- A conversion that raised is not repeated: calling it again succeeds and changes nothing, although the model is only
partly converted. This holds for every model, also with a malformed table or names that occur twice. -/
theorem C37_retry (env' : Env) (clk' : Nat → ℚ) :
    ((toIsing env clk).run m = .error e m' → (toIsing env' clk').run m' = .ok ⟨⟩ m') ∧
    ((toQubo env clk).run m = .error e m' → (toQubo env' clk').run m' = .ok ⟨⟩ m') := by
  have key : ∀ {mt : MType} {f o f₂ g₂ o₂ : Coef → Coef},
      (genConv env mt f o f₂ g₂ o₂ clk).run m = .error e m' → m'.mtype = mt := by
    intro mt f o f₂ g₂ o₂ h
    have := genConv_frame (I := fun m => m.mtype = mt) (fun _ _ _ _ _ h => h) (fun _ _ h => h) env mt f o f₂ g₂ o₂ clk m
      (retypeLoop_mtype _ _)
    rw [h] at this
    exact this
  constructor
  · intro h
    rw [toIsing_run] at h
    split at h
    · cases h
    · rw [toIsing_run, if_pos (key h)]
  · intro h
    rw [toQubo_run] at h
    split at h
    · cases h
    · rw [toQubo_run, if_pos (key h)]

/-- A model whose conversion stops at the second of three quadratic interactions. -/
def stopEx : LModel := Ex.after (LModel.new .qubo "202") do
  let _ ← createVars "x" [3]
  addInteraction 10 (.tuple [some Ex.b0, some Ex.b1]) (.str "J") (.num 8) (.num 1) .none .none
  addInteraction 10 (.var Ex.b0) (.str "") (.num 2) (.num 1) .none .none
  addInteraction 11 (.tuple [some Ex.b1, some Ex.b2]) (.str "K") (.num 4) (.num 1) .none .none
  addInteraction 11 (.tuple [some Ex.b0, some Ex.b2]) (.str "L") (.num 4) (.num 1) .none .none
  addInteraction 12 (.var Ex.b2) (.str "x[2] from K (mtype additional t)") (.num 1) (.num 1) .none .none

/-- The hypotheses hold. The linear interactions and `J` are converted, `K` is converted and has one of its two new
interactions, `L` is not converted, and the offset has the parts of the linear interactions and of `J`. A second call
accepts this. -/
example : stopEx.Rect ∧ stopEx.names.Nodup ∧ ∃ m', (toIsing convEnv fun _ => 0).run stopEx = .error .valueError m' ∧
    m'.mtype = .ising ∧ m'.rows.map (fun r => (r.name, r.coef)) = [("J", .num 2), ("x[0]", .num 1), ("K", .num 1),
      ("L", .num 4), ("x[2] from K (mtype additional t)", .num (1/2)), ("x[0] from J (mtype additional t)", .num 2),
      ("x[1] from J (mtype additional t)", .num 2), ("x[1] from K (mtype additional t)", .num 1)] ∧
    m'.offset = .num (7/2) ∧ (toIsing convEnv fun _ => 1).run m' = .ok ⟨⟩ m' := by
  have h1 : stopEx.Rect := ⟨by decide, by decide, by decide, by decide⟩
  refine ⟨h1, by decide, _, rfl, by decide +kernel, by decide +kernel, by decide +kernel, ?_⟩
  exact (C37_retry _ _).1 (rfl : (toIsing convEnv fun _ => 0).run stopEx = _)

end Props

end Sawatabi
