import Verif.Model.Columns
import Verif.Lemmas.Monad

/-!
# The row model and the column model behave alike
-/

namespace Sawatabi

/-- A result with its value and state mapped. -/
def Res.both {σ τ α β : Type} (g : α → β) (f : σ → τ) : Res σ α → Res τ β
  | .ok a s => .ok (g a) (f s)
  | .error e s => .error e (f s)

/-- `x` does on `f s` what `y` does on `s`, up to `g` on the values. -/
def Sim {σ τ α β : Type} (f : σ → τ) (g : α → β) (x : Py τ β) (y : Py σ α) : Prop := ∀ s, x.run (f s) = (y.run s).both g f

namespace Sim

variable {σ τ α β γ δ : Type} {f : σ → τ} {g : α → β}

theorem pure (a : α) : Sim f g (Pure.pure (g a)) (Pure.pure a) := fun _ => rfl

theorem pure' (a : α) : Sim f id (Pure.pure a) (Pure.pure a) := fun _ => rfl

theorem throw (e : Err) : Sim f g (MonadExcept.throw e) (MonadExcept.throw e) := fun _ => rfl

theorem throw_bind {g' : γ → δ} (e : Err) (h : β → Py τ δ) (k : α → Py σ γ) :
    Sim f g' (MonadExcept.throw e >>= h) (MonadExcept.throw e >>= k) := fun _ => rfl

theorem bind {x : Py τ β} {y : Py σ α} {g' : γ → δ} {h : β → Py τ δ} {k : α → Py σ γ} (hx : Sim f g x y)
    (hk : ∀ a, Sim f g' (h (g a)) (k a)) : Sim f g' (x >>= h) (y >>= k) := by
  intro s
  rw [Py.run_bind, Py.run_bind, hx s]
  cases y.run s with
  | ok a t => exact hk a t
  | error e t => rfl

theorem get : Sim f f MonadState.get MonadState.get := fun _ => rfl

theorem set (s : σ) : Sim f id (MonadStateOf.set (f s)) (MonadStateOf.set s : Py σ PUnit) := fun _ => rfl

theorem modify {F : τ → τ} {G : σ → σ} (h : ∀ s, F (f s) = f (G s)) :
    Sim f id (_root_.modify F : Py τ PUnit) (_root_.modify G : Py σ PUnit) := by
  intro s
  show Res.ok _ (F (f s)) = Res.ok _ (f (G s))
  rw [h]

theorem liftE {e' : Except Err β} {e : Except Err α} (h : e' = e.map g) : Sim f g (Sawatabi.liftE e') (Sawatabi.liftE e) := by
  subst h
  cases e <;> intro s <;> rfl

theorem liftE' {e' e : Except Err α} (h : e' = e) : Sim f id (Sawatabi.liftE e') (Sawatabi.liftE e) := by
  subst h
  cases e' <;> intro s <;> rfl

theorem ite {c c' : Prop} [Decidable c] [Decidable c'] (hc : c' ↔ c) {x x' : Py τ β} {y y' : Py σ α} (h : Sim f g x y)
    (h' : Sim f g x' y') : Sim f g (if c' then x else x') (if c then y else y') := by
  by_cases hh : c
  · rw [if_pos hh, if_pos (hc.mpr hh)]; exact h
  · rw [if_neg hh, if_neg (fun h => hh (hc.mp h))]; exact h'

theorem forM {l : List α} {h : β → Py τ PUnit} {k : α → Py σ PUnit} (hs : ∀ a ∈ l, Sim f id (h (g a)) (k a)) :
    Sim f id ((l.map g).forM h) (l.forM k) := by
  induction l with
  | nil => exact fun _ => rfl
  | cons a l ih =>
    intro s
    rw [List.map_cons, Py.run_forM_cons, Py.run_forM_cons, hs a (by simp) s]
    cases (k a).run s with
    | ok u t => exact ih (fun b hb => hs b (by simp [hb])) t
    | error e t => rfl

theorem forM' {l : List α} {h : α → Py τ PUnit} {k : α → Py σ PUnit} (hs : ∀ a ∈ l, Sim f id (h a) (k a)) :
    Sim f id (l.forM h) (l.forM k) := by
  have := forM (f := f) (g := id) hs
  rwa [List.map_id] at this

theorem congr_right {x : Py τ β} {y y' : Py σ α} (h : Sim f g x y) (e : ∀ s, y.run s = y'.run s) : Sim f g x y' := by
  intro s; rw [h s, e]

/-- Weakening of the value map. -/
theorem void {x : Py τ β} {y : Py σ α} (h : Sim f g x y) : Sim f id (do let _ ← x) (do let _ ← y) :=
  h.bind fun _ => pure' _

theorem state {x : Py τ β} {y : Py σ α} (h : Sim f g x y) (s : σ) : (x.run (f s)).state = f (y.run s).state := by
  rw [h s]; cases y.run s <;> rfl

end Sim

/-- `Sim` in one state. -/
def SimAt {σ τ α β : Type} (f : σ → τ) (g : α → β) (s : σ) (x : Py τ β) (y : Py σ α) : Prop := x.run (f s) = (y.run s).both g f

theorem SimAt.bind {σ τ α β γ δ : Type} {f : σ → τ} {g : α → β} {g' : γ → δ} {s : σ} {x : Py τ β} {y : Py σ α}
    {h : β → Py τ δ} {k : α → Py σ γ} (hx : SimAt f g s x y)
    (hk : ∀ a t, y.run s = .ok a t → SimAt f g' t (h (g a)) (k a)) : SimAt f g' s (x >>= h) (y >>= k) := by
  unfold SimAt at *
  rw [Py.run_bind, Py.run_bind, hx]
  cases hy : y.run s with
  | ok a t => exact hk a t hy
  | error e t => rfl

theorem Sim.at {σ τ α β : Type} {f : σ → τ} {g : α → β} {x : Py τ β} {y : Py σ α} (h : Sim f g x y) (s : σ) :
    SimAt f g s x y := h s

/-- Reading the state in both programs. -/
theorem SimAt.get_bind {σ τ γ δ : Type} {f : σ → τ} {g' : γ → δ} {s : σ} {h : τ → Py τ δ} {k : σ → Py σ γ}
    (hk : SimAt f g' s (h (f s)) (k s)) : SimAt f g' s (MonadState.get >>= h) (MonadState.get >>= k) := hk

theorem Sim.get_bind {σ τ γ δ : Type} {f : σ → τ} {g' : γ → δ} {h : τ → Py τ δ} {k : σ → Py σ γ}
    (hk : ∀ s, SimAt f g' s (h (f s)) (k s)) : Sim f g' (MonadState.get >>= h) (MonadState.get >>= k) := hk

namespace Col

/-- The `key` entry of an interaction. -/
def keyOf : Inter → Key
  | .lin v => .one v.label
  | .quad v w => .two v.label w.label

/-- The columns of a list of rows. -/
def ofRows (rs : List Row) : Cols where
  body := rs.map (·.inter.body)
  name := rs.map (·.name)
  key := rs.map fun r => keyOf r.inter
  key0 := rs.map (·.inter.key0)
  key1 := rs.map (·.inter.key1)
  interacts := rs.map (·.inter)
  coef := rs.map (·.coef)
  scale := rs.map (·.scale)
  timestamp := rs.map (·.timestamp)
  dirty := rs.map (·.dirty)
  removed := rs.map (·.removed)

/-- The column model of a row model. -/
def ofModel (m : LModel) : CModel := ⟨{ m with rows := [] }, ofRows m.rows⟩

/-- The abbreviation used below. -/
abbrev CSim {α β : Type} (g : α → β) (x : Py CModel β) (y : Py LModel α) : Prop := Sim ofModel g x y

/-- A method neither reads nor writes the rows. -/
def Blind {α : Type} (x : Py LModel α) : Prop := ∀ m rs, x.run { m with rows := rs } = (x.run m).both id fun t => { t with rows := rs }

namespace Blind

variable {α β : Type}

theorem pure (a : α) : Blind (Pure.pure a) := fun _ _ => rfl

theorem throw (e : Err) : Blind (MonadExcept.throw e : Py LModel α) := fun _ _ => rfl

theorem liftE (e : Except Err α) : Blind (Sawatabi.liftE e) := by cases e <;> exact fun _ _ => rfl

theorem bind {x : Py LModel α} {k : α → Py LModel β} (hx : Blind x) (hk : ∀ a, Blind (k a)) : Blind (x >>= k) := by
  intro m rs
  rw [Py.run_bind, Py.run_bind, hx m rs]
  cases x.run m with
  | ok a t => exact hk a t rs
  | error e t => rfl

/-- Reading the state is fine if what follows does not depend on the rows. -/
theorem get_bind {k : LModel → Py LModel β} (h : ∀ m rs, (k { m with rows := rs }).run { m with rows := rs } =
    ((k m).run m).both id fun t => { t with rows := rs }) : Blind (get >>= k) := fun m rs => h m rs

theorem modify {F : LModel → LModel} (h : ∀ m rs, F { m with rows := rs } = { F m with rows := rs }) :
    Blind (_root_.modify F : Py LModel PUnit) := by
  intro m rs
  show Res.ok _ (F _) = Res.ok _ _
  rw [h]

theorem forM {l : List α} {k : α → Py LModel PUnit} (h : ∀ a ∈ l, Blind (k a)) : Blind (l.forM k) := by
  induction l with
  | nil => exact fun _ _ => rfl
  | cons a l ih =>
    intro m rs
    rw [Py.run_forM_cons, Py.run_forM_cons, h a (by simp) m rs]
    cases (k a).run m with
    | ok u t => exact ih (fun b hb => h b (by simp [hb])) t rs
    | error e t => rfl

/-- Such a method leaves the rows alone. -/
theorem rows {x : Py LModel α} (h : Blind x) (m : LModel) : (x.run m).state.rows = m.rows := by
  have := h m m.rows
  cases hx : x.run m with
  | ok a t => rw [hx] at this; injection this with _ e; exact (congrArg LModel.rows e : _)
  | error a t => rw [hx] at this; injection this with _ e; exact (congrArg LModel.rows e : _)

theorem sim {x : Py LModel α} (h : Blind x) : CSim id (onBase x) x := by
  intro m
  have h1 := h m []
  have h2 := h.rows m
  show (match x.run { m with rows := [] } with
    | .ok a t => Res.ok a ({ ofModel m with base := t } : CModel)
    | .error e t => .error e { ofModel m with base := t }) = _
  rw [h1]
  cases hx : x.run m with
  | ok a t =>
    rw [hx] at h2
    show Res.ok a (⟨_, ofRows m.rows⟩ : CModel) = .ok a ⟨_, ofRows t.rows⟩
    rw [show t.rows = m.rows from h2]
  | error a t =>
    rw [hx] at h2
    show Res.error a (⟨_, ofRows m.rows⟩ : CModel) = .error a ⟨_, ofRows t.rows⟩
    rw [show t.rows = m.rows from h2]

end Blind

/-! ## Methods that do not touch the rows -/

theorem blind_pushNan (a : String) : Blind (pushNan a) := by
  intro m rs
  unfold pushNan
  py_simp
  cases dget m.attrCols a <;> rfl

theorem blind_setLastAttr (kv : String × PyVal) : Blind (setLastAttr kv) := by
  intro m rs
  unfold setLastAttr
  py_simp
  cases h : dget m.attrCols (attrKey kv.1) with
  | none =>
    simp only [Option.isNone_none, if_true, Py.run_set]
    cases dget (dset m.attrCols (attrKey kv.1) (List.replicate (m.length + 1).toNat PyVal.nan)) (attrKey kv.1) with
    | none => rfl
    | some col => cases col <;> rfl
  | some col =>
    simp only [Option.isNone_some, Bool.false_eq_true, if_false, Py.run_pure, h]
    cases col <;> rfl

theorem blind_setAttrAt (i : Nat) (kv : String × PyVal) : Blind (setAttrAt i kv) := by
  intro m rs
  unfold setAttrAt
  py_simp
  cases h : dget m.attrCols (attrKey kv.1) with
  | none =>
    simp only [Option.isNone_none, if_true, Py.run_set]
    cases dget (dset m.attrCols (attrKey kv.1) (List.replicate m.length.toNat PyVal.nan)) (attrKey kv.1) with
    | none => rfl
    | some col => simp only [Py.run_ite]; split <;> rfl
  | some col =>
    simp only [Option.isNone_some, Bool.false_eq_true, if_false, Py.run_pure, h, Py.run_ite]
    split <;> rfl

theorem blind_createVars (n : String) (sh : List Int) : Blind (createVars n sh) := by
  intro m rs
  unfold createVars
  by_cases h : sh = []
  · simp only [h, if_true]; rfl
  · simp only [h, if_false]
    py_simp
    rw [Py.run_liftE, Py.run_liftE]
    cases arrayCreate n sh m.mtype.vtype <;> rfl

theorem blind_variablesArray (a : VArray) : Blind (variablesArray a) := by
  intro m rs
  unfold variablesArray
  cases a.bits with
  | nil => rfl
  | cons v l =>
    py_simp
    by_cases h : v.vt = m.mtype.vtype
    · simp only [h, ne_eq, not_true_eq_false, if_false, Py.run_bind, Py.run_pure]
      cases labelStem v.label <;> rfl
    · simp only [h, ne_eq, not_false_eq_true, if_true, Py.run_throw]; rfl

theorem blind_appendVars (n : String) (sh : List Int) : Blind (appendVars n sh) := by
  intro m rs
  unfold appendVars
  by_cases h : sh = []
  · simp only [h, if_true]; rfl
  · simp only [h, if_false]
    py_simp
    cases dget m.vars n with
    | none => exact blind_createVars n sh m rs
    | some old =>
      py_simp
      rw [Py.run_liftE, Py.run_liftE]
      cases arrayCreate n (elementwiseAdd (old.shape.map Int.ofNat) sh) m.mtype.vtype <;> rfl

theorem blind_removeFromConstraint (v : PVar) (l : String) : Blind (removeFromConstraint v l) := by
  intro m rs
  unfold removeFromConstraint
  py_simp
  cases dget m.constraints l with
  | none => rfl
  | some c =>
    py_simp
    rw [Py.run_liftE, Py.run_liftE]
    cases c.removeVariable v <;> rfl

theorem blind_addConstraint (c : Constraint) : Blind (addConstraint c) := fun _ _ => rfl

theorem blind_removeConstraint (l : String) : Blind (removeConstraint l) := by
  intro m rs
  unfold removeConstraint
  py_simp
  cases dget m.constraints l <;> rfl

theorem blind_setOffset (c : Coef) : Blind (setOffset c) := fun _ _ => rfl

theorem blind_retypeVar (n : String) : Blind (retypeVar n) := by
  intro m rs
  unfold retypeVar
  py_simp
  cases dget m.vars n with
  | none => rfl
  | some a =>
    py_simp
    rw [Py.run_liftE, Py.run_liftE]
    cases arrayCreate n (a.shape.map Int.ofNat) m.mtype.vtype <;> rfl

theorem blind_mergeVar (p : String × VArray) : Blind (mergeVar p) := by
  intro m rs
  unfold mergeVar
  py_simp
  cases dget m.vars p.1 with
  | none => rfl
  | some a => exact Blind.bind (blind_appendVars _ _) (fun _ => Blind.pure _) m rs

theorem blind_popCol (i : Nat) (k : String) : Blind (popCol i k) := by
  intro m rs
  unfold popCol
  py_simp
  cases dget m.attrCols k with
  | none => rfl
  | some col => simp only [Py.run_ite]; split <;> rfl

theorem blind_void {α : Type} {x : Py LModel α} (h : Blind x) : Blind (do let _ ← x) := h.bind fun _ => Blind.pure _

/-! ## Names and targets -/

/-- The dictionary that belongs to an interaction. -/
def infoOf (i : Inter) : Info := ⟨i.body, i, keyOf i, i.defaultName⟩

theorem getInfo_eq (t : PyTarget) : getInfo t = (Sawatabi.getInfo t).map infoOf := by
  match t with
  | .var v => rfl
  | .none => rfl
  | .other => rfl
  | .falsy => rfl
  | .tuple [] => rfl
  | .tuple [_] => rfl
  | .tuple (_ :: _ :: _ :: _) => rfl
  | .tuple [none, none] => rfl
  | .tuple [none, some _] => rfl
  | .tuple [some _, none] => rfl
  | .tuple [some v, some w] =>
    show (if v.label = w.label then _ else if v.label < w.label then _ else _) =
      Except.map infoOf (if v.label = w.label then _ else if v.label < w.label then _ else _)
    split
    · rfl
    · split <;> rfl

theorem optInfo_eq (t : PyTarget) : optInfo t = (Sawatabi.optInfo t).map (Option.map infoOf) := by
  unfold optInfo Sawatabi.optInfo
  rw [getInfo_eq]
  split
  · rfl
  · cases Sawatabi.getInfo t <;> rfl

theorem hasName_eq (m : LModel) (n : String) : (ofRows m.rows).hasName n = m.hasName n := by
  unfold Cols.hasName LModel.hasName ofRows
  rw [Bool.eq_iff_iff]
  simp

theorem indexOf_eq (m : LModel) (n : String) : (ofRows m.rows).indexOf n = m.indexOf n := by
  unfold Cols.indexOf LModel.indexOf ofRows
  rw [List.findIdx?_map]
  rfl

theorem getAt_map {α β : Type} (h : α → β) (l : List α) (i : Nat) : getAt (l.map h) i = match l[i]? with
    | some a => .ok (h a) | none => .error .indexError := by
  unfold getAt
  rw [List.getElem?_map]
  cases l[i]? <;> rfl

theorem isRemoved_eq (m : LModel) (n : String) : (ofRows m.rows).isRemoved n = m.isRemoved n := by
  unfold Cols.isRemoved LModel.isRemoved
  rw [indexOf_eq]
  cases m.indexOf n with
  | error e => rfl
  | ok i =>
    show getAt (m.rows.map (·.removed)) i = match m.rows[i]? with | some r => .ok r.removed | none => .error .indexError
    rw [getAt_map]
    cases m.rows[i]? <;> rfl

theorem updateName_eq (m : LModel) (i : Option Inter) (n : PyName) :
    updateName (ofRows m.rows) (i.map infoOf) n = Sawatabi.updateName m i n := by
  unfold updateName Sawatabi.updateName
  simp only [hasName_eq]
  cases i <;> simp only [Option.map_none, Option.map_some, hasName_eq, infoOf] <;> rfl

theorem internalName_eq (m : LModel) (t : PyTarget) (n : PyName) :
    internalName (ofRows m.rows) t n = Sawatabi.internalName m t n := by
  unfold internalName Sawatabi.internalName
  rw [optInfo_eq]
  simp only [hasName_eq]
  cases Sawatabi.optInfo t with
  | error e => rfl
  | ok o => cases o <;> rfl

/-! ## Add, update, remove -/

theorem append_eq (rs : List Row) (i : Inter) (n : String) (c s : Coef) (ts : ℚ) :
    (ofRows rs).append (infoOf i) n c s ts =
      ofRows (rs ++ [{ name := n, inter := i, coef := c, scale := s, timestamp := some ts, dirty := true, removed := false }]) := by
  unfold Cols.append ofRows infoOf
  cases i <;> simp [keyOf, Key.first, Key.second, Inter.body, Inter.key0, Inter.key1]

theorem sim_add (now : ℚ) (t : PyTarget) (n : PyName) (c s : PyCoef) (a : PyAttrs) (ts : PyTs) :
    CSim id (addInteraction now t n c s a ts) (Sawatabi.addInteraction now t n c s a ts) := by
  unfold addInteraction Sawatabi.addInteraction
  refine Sim.ite Iff.rfl (Sim.throw_bind _ _ _) ?_
  refine (Sim.liftE' rfl).bind fun c => ?_
  refine (Sim.liftE' rfl).bind fun s => ?_
  have key : ∀ (ats : List (String × PyVal)) (ts : ℚ), CSim id (do
      let info ← liftE (getInfo t)
      let internalName ← if n.truthy then
          match n with
          | .str n => pure n
          | _ => throw .typeError
        else pure info.name
      let m ← get
      if m.cols.hasName internalName then throw .valueError
      modify fun m => { m with cols := m.cols.append info internalName c s ts }
      onBase ((← get).base.attrs.forM pushNan)
      onBase (ats.forM setLastAttr)
      modify fun m => { m with base := { m.base with length := m.base.length + 1 } }) (do
      let info ← liftE (Sawatabi.getInfo t)
      let internalName ← if n.truthy then
          match n with
          | .str n => pure n
          | _ => throw .typeError
        else pure info.defaultName
      let m ← get
      if m.hasName internalName then throw .valueError
      modify fun m => { m with rows := m.rows ++
        [{ name := internalName, inter := info, coef := c, scale := s, timestamp := some ts,
           dirty := true, removed := false }] }
      (← get).attrs.forM pushNan
      ats.forM setLastAttr
      modify fun m => { m with length := m.length + 1 }) := by
    intro ats ts
    refine (Sim.liftE (getInfo_eq t)).bind fun info => ?_
    have key : ∀ nm, CSim id (do
        let m ← get
        if m.cols.hasName nm then throw .valueError
        modify fun m => { m with cols := m.cols.append (infoOf info) nm c s ts }
        onBase ((← get).base.attrs.forM pushNan)
        onBase (ats.forM setLastAttr)
        modify fun m => { m with base := { m.base with length := m.base.length + 1 } }) (do
        let m ← get
        if m.hasName nm then throw .valueError
        modify fun m => { m with rows := m.rows ++
          [{ name := nm, inter := info, coef := c, scale := s, timestamp := some ts,
             dirty := true, removed := false }] }
        (← get).attrs.forM pushNan
        ats.forM setLastAttr
        modify fun m => { m with length := m.length + 1 }) := by
      intro nm
      refine Sim.get.bind fun m => ?_
      refine Sim.ite (by rw [show (ofModel m).cols = ofRows m.rows from rfl, hasName_eq]) (Sim.throw_bind _ _ _) ?_
      refine (Sim.modify fun m => ?_).bind fun _ => ?_
      · show CModel.mk _ _ = CModel.mk _ _
        rw [show (ofModel m).cols = ofRows m.rows from rfl, append_eq]
        rfl
      refine Sim.get.bind fun m => ?_
      refine (Blind.sim (Blind.forM fun a _ => blind_pushNan a)).bind fun _ => ?_
      refine (Blind.sim (Blind.forM fun a _ => blind_setLastAttr a)).bind fun _ => ?_
      exact Sim.modify fun m => rfl
    refine Sim.ite Iff.rfl ?_ (key _)
    cases n with
    | str n => exact key _
    | tuple => exact Sim.throw_bind _ _ _
    | other => exact Sim.throw_bind _ _ _
  cases a with
  | none => cases ts with
    | none => exact key _ _
    | num q => exact key _ _
    | bad => exact fun _ => rfl
  | dict d => cases ts with
    | none => exact key _ _
    | num q => exact key _ _
    | bad => exact fun _ => rfl
  | bad => exact fun _ => rfl

theorem putCol_at {α : Type} {col : Cols → List α} {upd : Cols → List α → Cols} {i : Nat} {a : α} {F : Row → Row}
    {m : LModel} (hi : i < m.rows.length) (hc : (col (ofRows m.rows)).length = m.rows.length)
    (hu : upd (ofRows m.rows) ((col (ofRows m.rows)).set i a) = ofRows (m.rows.modify i F)) :
    SimAt ofModel id m (putCol col upd i a) (setRow i F) := by
  unfold SimAt putCol putAt setRow
  py_simp
  rw [show (ofModel m).cols = ofRows m.rows from rfl, hc, if_pos hi]
  py_simp
  rw [hu]
  rfl

theorem map_modify_same {α β : Type} (p : α → β) (F : α → α) (h : ∀ a, p (F a) = p a) (l : List α) (i : Nat) :
    (l.modify i F).map p = l.map p := by
  induction l generalizing i with
  | nil => simp
  | cons a l ih => cases i <;> simp [ih, h]

theorem map_modify_set {α β : Type} (p : α → β) (F : α → α) (b : β) (h : ∀ a, p (F a) = b) (l : List α) (i : Nat) :
    (l.modify i F).map p = (l.map p).set i b := by
  induction l generalizing i with
  | nil => simp
  | cons a l ih => cases i <;> simp [ih, h]

/-- Proves that setting an entry of one column is a modification of the rows. -/
macro "cols_eq" : tactic => `(tactic| (
  simp only [ofRows, Cols.mk.injEq]
  refine ⟨?_, ?_, ?_, ?_, ?_, ?_, ?_, ?_, ?_, ?_, ?_⟩
  all_goals symm
  all_goals first
    | (refine map_modify_same _ _ ?_ _ _; intro r; rfl)
    | (refine map_modify_set _ _ _ ?_ _ _; intro r; rfl)))

theorem putCoef_at {i : Nat} {q : ℚ} {m : LModel} (hi : i < m.rows.length) :
    SimAt ofModel id m (putCol (·.coef) (fun d l => { d with coef := l }) i (.num q))
      (setRow i fun r => { r with coef := .num q }) := by
  refine putCol_at hi (by simp [ofRows]) ?_
  cols_eq

theorem putScale_at {i : Nat} {q : ℚ} {m : LModel} (hi : i < m.rows.length) :
    SimAt ofModel id m (putCol (·.scale) (fun d l => { d with scale := l }) i (.num q))
      (setRow i fun r => { r with scale := .num q }) := by
  refine putCol_at hi (by simp [ofRows]) ?_
  cols_eq

theorem putTimestamp_at {i : Nat} {q : Option ℚ} {m : LModel} (hi : i < m.rows.length) :
    SimAt ofModel id m (putCol (·.timestamp) (fun d l => { d with timestamp := l }) i q)
      (setRow i fun r => { r with timestamp := q }) := by
  refine putCol_at hi (by simp [ofRows]) ?_
  cols_eq

theorem putDirty_at {i : Nat} {b : Bool} {m : LModel} (hi : i < m.rows.length) :
    SimAt ofModel id m (putCol (·.dirty) (fun d l => { d with dirty := l }) i b)
      (setRow i fun r => { r with dirty := b }) := by
  refine putCol_at hi (by simp [ofRows]) ?_
  cols_eq

theorem putRemoved_at {i : Nat} {b : Bool} {m : LModel} (hi : i < m.rows.length) :
    SimAt ofModel id m (putCol (·.removed) (fun d l => { d with removed := l }) i b)
      (setRow i fun r => { r with removed := b }) := by
  refine putCol_at hi (by simp [ofRows]) ?_
  cols_eq

theorem indexOf_lt {m : LModel} {n : String} {i : Nat} (h : m.indexOf n = .ok i) : i < m.rows.length := by
  unfold LModel.indexOf at h
  cases hf : m.rows.findIdx? (·.name = n) with
  | none => rw [hf] at h; cases h
  | some j =>
    rw [hf] at h
    cases h
    exact (List.findIdx?_eq_some_iff_findIdx_eq.mp hf).1

theorem liftE_ok {σ α : Type} {e : Except Err α} {s t : σ} {a : α} (h : (liftE e : Py σ α).run s = .ok a t) :
    e = .ok a ∧ t = s := by
  cases e with
  | error e => cases h
  | ok b => cases h; exact ⟨rfl, rfl⟩

theorem setRow_len {i : Nat} {F : Row → Row} {m t : LModel} {u : Unit} (h : (setRow i F).run m = .ok u t) :
    t.rows.length = m.rows.length := by
  cases h
  simp

theorem sim_writeRow {i : Nat} {m : LModel} (hi : i < m.rows.length) (c s : Option ℚ) (ats : List (String × PyVal))
    (ts : Option ℚ) : SimAt ofModel id m (writeRow i c s ats ts) (Sawatabi.writeRow i c s ats ts) := by
  unfold writeRow Sawatabi.writeRow
  refine SimAt.bind (g := id) (s := m) ?_ fun _ t ht => ?_
  · cases c with
    | none => exact rfl
    | some q => exact putCoef_at hi
  have hi : i < t.rows.length := by
    cases c with
    | none => cases ht; exact hi
    | some q => rw [setRow_len ht]; exact hi
  clear ht
  refine SimAt.bind (g := id) (s := t) ?_ fun _ m ht => ?_
  · cases s with
    | none => exact rfl
    | some q => exact putScale_at hi
  have hi : i < m.rows.length := by
    cases s with
    | none => cases ht; exact hi
    | some q => rw [setRow_len ht]; exact hi
  clear ht
  have hb : Blind (ats.forM (setAttrAt i)) := Blind.forM fun a _ => blind_setAttrAt i a
  refine (hb.sim.at m).bind fun _ t ht => ?_
  have hi : i < t.rows.length := by
    have := hb.rows m
    rw [ht] at this
    rwa [show t.rows = m.rows from this]
  refine (putTimestamp_at hi).bind fun _ m ht => ?_
  exact putDirty_at (by rwa [setRow_len ht])

theorem sim_update (imp now : ℚ) (t : PyTarget) (n : PyName) (c s : Option PyCoef) (a : PyAttrs) (ts : Option PyTs) :
    CSim id (updateInteraction imp now t n c s a ts) (Sawatabi.updateInteraction imp now t n c s a ts) := by
  unfold updateInteraction Sawatabi.updateInteraction
  refine Sim.ite Iff.rfl (fun _ => rfl) ?_
  refine Sim.ite Iff.rfl (fun _ => rfl) ?_
  refine (Sim.liftE' rfl).bind fun c => ?_
  refine (Sim.liftE' rfl).bind fun s => ?_
  refine Sim.ite Iff.rfl (fun _ => rfl) ?_
  refine Sim.ite Iff.rfl (fun _ => rfl) ?_
  refine (Sim.liftE (optInfo_eq t)).bind fun i? => ?_
  refine Sim.get_bind fun m => ?_
  refine ((Sim.liftE' (updateName_eq m i? n)).at m).bind fun n? t ht => ?_
  obtain ⟨_, rfl⟩ := liftE_ok ht
  cases n? with
  | none => exact sim_add _ _ _ _ _ _ _ t
  | some nm =>
    refine ((Sim.liftE' (isRemoved_eq t nm)).at t).bind fun b t' ht' => ?_
    obtain ⟨_, rfl⟩ := liftE_ok ht'
    cases b with
    | true => exact rfl
    | false =>
      refine ((Sim.liftE' (indexOf_eq t' nm)).at t').bind fun i t ht => ?_
      obtain ⟨h1, rfl⟩ := liftE_ok ht
      exact sim_writeRow (indexOf_lt h1) _ _ _ _

theorem sim_remove (t : PyTarget) (n : PyName) : CSim id (removeInteraction t n) (Sawatabi.removeInteraction t n) := by
  unfold removeInteraction Sawatabi.removeInteraction
  refine Sim.get_bind fun m => ?_
  refine ((Sim.liftE' (internalName_eq m t n)).at m).bind fun nm t ht => ?_
  obtain ⟨_, rfl⟩ := liftE_ok ht
  refine ((Sim.liftE' (indexOf_eq t nm)).at t).bind fun i t' ht => ?_
  obtain ⟨h1, rfl⟩ := liftE_ok ht
  refine (putRemoved_at (indexOf_lt h1)).bind fun _ t ht => ?_
  exact putDirty_at (by rw [setRow_len ht]; exact indexOf_lt h1)

/-! ## Select, delete, fix -/

theorem sim_makeFrame : CSim id makeFrame Sawatabi.makeFrame := by
  unfold makeFrame Sawatabi.makeFrame
  refine Sim.get.bind fun m => ?_
  refine Sim.ite ?_ (fun _ => rfl) (fun _ => rfl)
  have h1 : (ofModel m).cols.lengths.any (· ≠ (ofModel m).cols.body.length) = false := by
    simp [ofModel, ofRows, Cols.lengths]
  have h2 : (ofModel m).cols.body.length = m.rows.length := by simp [ofModel, ofRows]
  rw [h1, h2, Bool.false_or]
  rfl

theorem sim_select (v : PVar) : CSim id (selectByVariable v) (Sawatabi.selectByVariable v) := by
  unfold selectByVariable Sawatabi.selectByVariable
  refine sim_makeFrame.bind fun _ => Sim.get.bind fun m => ?_
  have : ((ofModel m).cols.name.zip ((ofModel m).cols.key0.zip (ofModel m).cols.key1)) =
      m.rows.map fun r => (r.name, r.inter.key0, r.inter.key1) := by
    simp only [ofModel, ofRows, List.zip_map']
  show Sim ofModel id (Pure.pure (List.map _ (List.filter _ _))) _
  rw [this, List.filter_map, List.map_map]
  exact Sim.pure' _

theorem sim_delete (v : PVar) : CSim id (deleteVariable v) (Sawatabi.deleteVariable v) := by
  unfold deleteVariable Sawatabi.deleteVariable
  refine (Sim.modify (f := ofModel) fun _ => ?_).bind fun _ => Sim.get.bind fun m => ?_
  · rfl
  refine (Blind.sim (Blind.forM fun l _ => blind_removeFromConstraint v l)).bind fun _ => ?_
  exact (sim_select v).bind fun ns => Sim.forM' fun n _ => sim_remove .none (.str n)

theorem ofRows_at (rs : List Row) (i : Nat) : (ofRows rs).body[i]? = (rs[i]?).map (·.inter.body) ∧
    (ofRows rs).coef[i]? = (rs[i]?).map (·.coef) ∧ (ofRows rs).scale[i]? = (rs[i]?).map (·.scale) ∧
    (ofRows rs).interacts[i]? = (rs[i]?).map (·.inter) := by
  simp [ofRows]

theorem sim_fixOne (now : ℚ) (v : PVar) (q : ℚ) (s : String) : CSim id (fixOne now v q s) (Sawatabi.fixOne now v q s) := by
  unfold fixOne Sawatabi.fixOne
  refine Sim.get.bind fun m => (Sim.liftE' (indexOf_eq m s)).bind fun i => ?_
  rw [show (ofModel m).cols = ofRows m.rows from rfl]
  obtain ⟨h1, h2, h3, h4⟩ := ofRows_at m.rows i
  simp only [id_eq, getAt, h1, h2, h3, h4]
  cases m.rows[i]? with
  | none => exact fun _ => rfl
  | some r =>
    obtain ⟨nm, inter, c, sc, ts, d, rm⟩ := r
    cases inter with
    | lin x =>
      have h : CSim id (do
          set (⟨{ (ofModel m).base with offset := m.offset.add (((Coef.num (-1 * q)).mul c).mul sc) }, ofRows m.rows⟩ : CModel)
          removeInteraction .none (.str s)) (do
          set { m with offset := m.offset.add (((Coef.num (-1 * q)).mul c).mul sc) }
          Sawatabi.removeInteraction .none (.str s)) :=
        (Sim.set { m with offset := m.offset.add (((Coef.num (-1 * q)).mul c).mul sc) }).bind fun _ => sim_remove _ _
      exact h
    | quad a b =>
      have h : ∀ k : PVar, CSim id (do
          addInteraction now (.var k) (.str (k.label ++ " (before fixed: " ++ s ++ ")"))
            (((Coef.num q).mul c).mul sc).toPy (.num 1) .none .none
          removeInteraction .none (.str s)) (do
          Sawatabi.addInteraction now (.var k) (.str (k.label ++ " (before fixed: " ++ s ++ ")"))
            (((Coef.num q).mul c).mul sc).toPy (.num 1) .none .none
          Sawatabi.removeInteraction .none (.str s)) := fun k => (sim_add _ _ _ _ _ _ _).bind fun _ => sim_remove _ _
      have h' : CSim id (do
          let keep ← if a.label = v.label then pure b else if b.label = v.label then pure a else throw .unboundLocalError
          addInteraction now (.var keep) (.str (keep.label ++ " (before fixed: " ++ s ++ ")"))
            (((Coef.num q).mul c).mul sc).toPy (.num 1) .none .none
          removeInteraction .none (.str s)) (do
          let keep ← if a.label = v.label then pure b else if b.label = v.label then pure a else throw .unboundLocalError
          Sawatabi.addInteraction now (.var keep) (.str (keep.label ++ " (before fixed: " ++ s ++ ")"))
            (((Coef.num q).mul c).mul sc).toPy (.num 1) .none .none
          Sawatabi.removeInteraction .none (.str s)) := by
        by_cases h1 : a.label = v.label
        · simp only [h1, if_true]; exact h b
        · by_cases h2 : b.label = v.label
          · simp only [h1, h2, if_true, if_false]; exact h a
          · simp only [h1, h2, if_false]; exact fun _ => rfl
      exact h'

theorem sim_fix (clk : Nat → ℚ) (v : PVar) (q : PyNum) : CSim id (fixVariable clk v q) (Sawatabi.fixVariable clk v q) := by
  unfold fixVariable Sawatabi.fixVariable
  refine Sim.get.bind fun m => (Sim.liftE' rfl).bind fun q => ?_
  refine (Sim.modify (f := ofModel) fun _ => ?_).bind fun _ => (sim_select v).bind fun ns => ?_
  · rfl
  refine Sim.ite Iff.rfl (fun _ => rfl) ?_
  refine Sim.ite Iff.rfl (Sim.forM' fun n _ => sim_remove _ _) (Sim.forM' fun p _ => sim_fixOne _ _ _ _)

/-! ## Conversion of the model type -/

/-- What the code reads from a row. -/
def recOf (r : Row) : Rec := ⟨r.name, r.inter.key0, r.inter.key1, r.inter, r.coef⟩

theorem sim_selectBody (b : Nat) : CSim (List.map recOf) (selectBody b) (Sawatabi.selectBody b) := by
  unfold selectBody Sawatabi.selectBody
  refine sim_makeFrame.bind fun _ => Sim.get.bind fun m => ?_
  have : ((ofModel m).cols.body.zip (ofModel m).cols.removed).zip ((ofModel m).cols.name.zip ((ofModel m).cols.key0.zip
      ((ofModel m).cols.key1.zip ((ofModel m).cols.interacts.zip (ofModel m).cols.coef)))) =
      m.rows.map fun r => ((r.inter.body, r.removed), r.name, r.inter.key0, r.inter.key1, r.inter, r.coef) := by
    simp only [ofModel, ofRows, List.zip_map']
  show Sim ofModel _ (Pure.pure (List.map _ (List.filter _ _))) _
  rw [this, List.filter_map, List.map_map]
  exact Sim.pure (g := List.map recOf) _

theorem fold_set_map {α β : Type} (P : α → Bool) (p : α → β) (h : β → β) (l : List α) (pre : List β) :
    ((l.zipIdx pre.length).filter (fun x => P x.1)).foldl (fun acc x => acc.set x.2 (h (p x.1))) (pre ++ l.map p) =
      pre ++ l.map fun a => if P a then h (p a) else p a := by
  induction l generalizing pre with
  | nil => simp
  | cons a l ih =>
    have := ih (pre ++ [if P a then h (p a) else p a])
    simp only [List.length_append, List.length_singleton, List.append_assoc, List.singleton_append] at this
    rw [List.zipIdx_cons, List.filter_cons]
    cases hP : P a with
    | true =>
      simp only [if_true, List.foldl_cons, List.map_cons, hP] at this ⊢
      rw [← this]
      congr 1
      simp
    | false =>
      simp only [Bool.false_eq_true, if_false, List.map_cons, hP] at this ⊢
      exact this

end Col

end Sawatabi
