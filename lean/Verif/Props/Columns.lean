import Verif.Lemmas.ColumnsPhysical
import Verif.Props.Examples

/-!
# The default columns stay in step (C84)

The interaction table of the code is a dictionary of lists, one for each column; the methods write them one at a time.
-/

namespace Sawatabi.Props

open Sawatabi.Col (CModel Key CMade)

/-- What the columns `body`, `key`, `key_0` and `key_1` have to say about the variables of an interaction. -/
def Describes : Inter → Nat → Key → String → Option String → Prop
  | .lin v, body, key, key0, key1 => body = 1 ∧ key = .one v.label ∧ key0 = v.label ∧ key1 = none
  | .quad v w, body, key, key0, key1 =>
    body = 2 ∧ key = .two v.label w.label ∧ key0 = v.label ∧ key1 = some w.label

/-- All columns have the same length, and at each position the columns about the variables agree. -/
structure Aligned (c : Col.Cols) : Prop where
  lengths : ∃ n, c.body.length = n ∧ c.name.length = n ∧ c.key.length = n ∧ c.key0.length = n ∧ c.key1.length = n ∧
    c.interacts.length = n ∧ c.coef.length = n ∧ c.scale.length = n ∧ c.timestamp.length = n ∧ c.dirty.length = n ∧
    c.removed.length = n
  describes : ∀ (i : Nat) inter body key key0 key1, c.interacts[i]? = some inter → c.body[i]? = some body →
    c.key[i]? = some key → c.key0[i]? = some key0 → c.key1[i]? = some key1 → Describes inter body key key0 key1

/-- What a row model says, in columns: at each position the columns hold the fields of the row. -/
structure Shows (c : CModel) (m : LModel) : Prop where
  base : c.base = { m with rows := [] }
  length : c.cols.name.length = m.rows.length
  aligned : Aligned c.cols
  entries : ∀ (i : Nat) r, m.rows[i]? = some r → c.cols.name[i]? = some r.name ∧ c.cols.interacts[i]? = some r.inter ∧
    c.cols.coef[i]? = some r.coef ∧ c.cols.scale[i]? = some r.scale ∧ c.cols.timestamp[i]? = some r.timestamp ∧
    c.cols.dirty[i]? = some r.dirty ∧ c.cols.removed[i]? = some r.removed

theorem ofRows_aligned (rs : List Row) : Aligned (Col.ofRows rs) where
  lengths := ⟨rs.length, by simp [Col.ofRows]⟩
  describes := by
    intro i inter body key key0 key1 h1 h2 h3 h4 h5
    simp only [Col.ofRows, List.getElem?_map, Option.map_eq_some_iff] at h1 h2 h3 h4 h5
    obtain ⟨r, hr, rfl⟩ := h1
    obtain ⟨_, h2, rfl⟩ := h2
    obtain ⟨_, h3, rfl⟩ := h3
    obtain ⟨_, h4, rfl⟩ := h4
    obtain ⟨_, h5, rfl⟩ := h5
    rw [hr] at h2 h3 h4 h5
    cases h2; cases h3; cases h4; cases h5
    cases r.inter <;> exact ⟨rfl, rfl, rfl, rfl⟩

theorem ofModel_shows (m : LModel) : Shows (Col.ofModel m) m where
  base := rfl
  length := by simp [Col.ofModel, Col.ofRows]
  aligned := ofRows_aligned _
  entries := by
    intro i r h
    simp [Col.ofModel, Col.ofRows, h]

/-- Columns that show a row model are its columns. -/
theorem shows_unique {c : CModel} {m : LModel} (h : Shows c m) : c = Col.ofModel m := by
  obtain ⟨n, h1, h2, h3, h4, h5, h6, h7, h8, h9, h10, h11⟩ := h.aligned.lengths
  have hn : n = m.rows.length := by rw [← h2]; exact h.length
  have at' : ∀ {β : Type} (l : List β) (F : Row → β), l.length = n →
      (∀ (i : Nat) r, m.rows[i]? = some r → l[i]? = some (F r)) → l = m.rows.map F := by
    intro β l F hl hF
    apply List.ext_getElem?
    intro i
    rw [List.getElem?_map]
    cases hr : m.rows[i]? with
    | none =>
      have := List.getElem?_eq_none_iff.mp hr
      rw [List.getElem?_eq_none (by omega)]
      rfl
    | some r => rw [hF i r hr]; rfl
  have desc : ∀ (i : Nat) r, m.rows[i]? = some r → c.cols.body[i]? = some r.inter.body ∧ c.cols.key[i]? = some (Col.keyOf r.inter) ∧
      c.cols.key0[i]? = some r.inter.key0 ∧ c.cols.key1[i]? = some r.inter.key1 := by
    intro i r hr
    have hlt : i < n := by
      rw [hn]
      exact (List.getElem?_eq_some_iff.mp hr).1
    have e1 := List.getElem?_eq_getElem (l := c.cols.body) (by omega : i < _)
    have e2 := List.getElem?_eq_getElem (l := c.cols.key) (by omega : i < _)
    have e3 := List.getElem?_eq_getElem (l := c.cols.key0) (by omega : i < _)
    have e4 := List.getElem?_eq_getElem (l := c.cols.key1) (by omega : i < _)
    have hd := h.aligned.describes i _ _ _ _ _ (h.entries i r hr).2.1 e1 e2 e3 e4
    rw [e1, e2, e3, e4]
    cases hi : r.inter with
    | lin v =>
      rw [hi] at hd
      obtain ⟨a, b, c, d⟩ := hd
      rw [a, b, c, d]
      exact ⟨rfl, rfl, rfl, rfl⟩
    | quad v w =>
      rw [hi] at hd
      obtain ⟨a, b, c, d⟩ := hd
      rw [a, b, c, d]
      exact ⟨rfl, rfl, rfl, rfl⟩
  obtain ⟨base, cols⟩ := c
  have hb : base = { m with rows := [] } := h.base
  subst hb
  show CModel.mk _ cols = CModel.mk _ (Col.ofRows m.rows)
  congr 1
  obtain ⟨c1, c2, c3, c4, c5, c6, c7, c8, c9, c10, c11⟩ := cols
  simp only [Col.ofRows, Col.Cols.mk.injEq]
  exact ⟨at' _ _ h1 fun i r hr => (desc i r hr).1, at' _ _ h2 fun i r hr => (h.entries i r hr).1,
    at' _ _ h3 fun i r hr => (desc i r hr).2.1, at' _ _ h4 fun i r hr => (desc i r hr).2.2.1,
    at' _ _ h5 fun i r hr => (desc i r hr).2.2.2, at' _ _ h6 fun i r hr => (h.entries i r hr).2.1,
    at' _ _ h7 fun i r hr => (h.entries i r hr).2.2.1, at' _ _ h8 fun i r hr => (h.entries i r hr).2.2.2.1,
    at' _ _ h9 fun i r hr => (h.entries i r hr).2.2.2.2.1, at' _ _ h10 fun i r hr => (h.entries i r hr).2.2.2.2.2.1,
    at' _ _ h11 fun i r hr => (h.entries i r hr).2.2.2.2.2.2⟩

/-! ## C84 -/

/-- **C84**: whatever public methods are called, returning or raising, the default columns keep one length and agree about
the variables at each position. -/
theorem C84_columns_aligned {env : Env} {c : CModel} (h : CMade env c) : Aligned c.cols := by
  obtain ⟨m, _, rfl⟩ := Col.made_of_cmade h
  exact ofRows_aligned _

/-- **C84**: a model kept in columns shows a model kept in rows that the same kind of calls make; what is proved of all of the
latter therefore holds of the former. -/
theorem C84_rows {env : Env} {c : CModel} (h : CMade env c) : ∃ m, Made env AnyCall m ∧ Shows c m := by
  obtain ⟨m, hm, rfl⟩ := Col.made_of_cmade h
  exact ⟨m, hm, ofModel_shows m⟩

/-- Two runs end alike: with the same value or exception, and one state shows the other. -/
def EndAlike {α : Type} : Res CModel α → Res LModel α → Prop
  | .ok a c, .ok b m => a = b ∧ Shows c m
  | .error e c, .error e' m => e = e' ∧ Shows c m
  | _, _ => False

theorem endAlike_of_sim {α : Type} {x : Py CModel α} {y : Py LModel α} (h : Col.CSim id x y) {c : CModel} {m : LModel}
    (hs : Shows c m) : EndAlike (x.run c) (y.run m) := by
  rw [shows_unique hs, h m]
  cases y.run m with
  | ok a t => exact ⟨rfl, ofModel_shows t⟩
  | error e t => exact ⟨rfl, ofModel_shows t⟩

/-- **C84**: each call does the same to the columns as to the rows. -/
theorem C84_call (env : Env) (op : Op) (hop : ∀ clk o, op ≠ .merge clk o) {c : CModel} {m : LModel} (h : Shows c m) :
    EndAlike ((Col.call env op).run c) ((op.call env).run m) := endAlike_of_sim (Col.sim_call env op hop) h

/-- **C84**: also `to_physical` with its value. -/
theorem C84_toPhysical (env : Env) (clks : Nat → Nat → ℚ) (ids : Nat → String) (ph : List (String × ℚ)) {c : CModel}
    {m : LModel} (h : Shows c m) : EndAlike ((Col.toPhysical env clks ids ph).run c) ((toPhysical env clks ids ph).run m) :=
  endAlike_of_sim (Col.sim_toPhysical env clks ids ph) h

/-- **C84**: and `merge`, for both models. -/
theorem C84_merge (env : Env) (clk : Nat → ℚ) {c d : CModel} {m o : LModel} (h : Shows c m) (ho : Shows d o) :
    match (Col.merge env clk).run (c, d), (merge env clk).run (m, o) with
    | .ok _ s, .ok _ t => Shows s.1 t.1 ∧ Shows s.2 t.2
    | .error e s, .error e' t => e = e' ∧ Shows s.1 t.1 ∧ Shows s.2 t.2
    | _, _ => False := by
  have hs := Col.sim_merge env clk (m, o)
  rw [shows_unique h, shows_unique ho]
  rw [show Col.ofPair (m, o) = (Col.ofModel m, Col.ofModel o) from rfl] at hs
  rw [hs]
  cases (merge env clk).run (m, o) with
  | ok u t => exact ⟨ofModel_shows _, ofModel_shows _⟩
  | error e t => exact ⟨rfl, ofModel_shows _, ofModel_shows _⟩

/-! ### Examples -/

/-- An environment. -/
def colsEnv : Env := ⟨0, fun _ => "0"⟩

/-- A model after a list of calls. -/
def afterCalls (c : CModel) (ops : List Op) : CModel := ops.foldl (fun c op => ((Col.call colsEnv op).run c).state) c

theorem afterCalls_made {c : CModel} (ops : List Op) (h : CMade colsEnv c) : CMade colsEnv (afterCalls c ops) := by
  induction ops generalizing c with
  | nil => exact h
  | cons op ops ih => exact ih (.step c op h)

/-- The columns of an Ising model after some calls, one of them removing an interaction and one raising. -/
def colsEx : CModel := afterCalls (CModel.new .ising "101") [.variables "x" [2],
  .add 10 (.var Ex.x0) (.str "") (.num 3) (.num 2) (.dict [("a", .num 7)]) .none,
  .add 11 (.tuple [some Ex.x1, some Ex.x0]) (.str "") (.num (-1)) (.num 1) .none .none,
  .add 12 (.var Ex.x0) (.str "") (.num 3) (.num 2) .none .none,
  .remove (.var Ex.x0) (.str "")]

theorem colsEx_made : CMade colsEnv colsEx := afterCalls_made _ (.new _ _)

example : colsEx.cols.body = [1, 2] ∧ colsEx.cols.key = [.one "x[0]", .two "x[0]" "x[1]"] ∧
    colsEx.cols.key1 = [none, some "x[1]"] ∧ colsEx.cols.removed = [true, false] := by decide +kernel
example : Aligned colsEx.cols := C84_columns_aligned colsEx_made
example : ∃ m, Made colsEnv AnyCall m ∧ Shows colsEx m := C84_rows colsEx_made

/-- The interactions as rows. -/
example : ∃ m, Shows colsEx m ∧ m.rows.length = 2 := by
  obtain ⟨m, _, h⟩ := C84_rows colsEx_made
  exact ⟨m, h, by rw [← h.length]; decide +kernel⟩

/-- Conversion to a physical model drops the removed row from all columns. -/
example : ((Col.toPhysical colsEnv (fun _ _ => 0) (fun _ => "i") []).run colsEx).state.cols =
    ⟨[2], ["x[0]*x[1]"], [.two "x[0]" "x[1]"], ["x[0]"], [some "x[1]"], [.quad Ex.x0 Ex.x1], [.num (-1)], [.num 1],
      [some 11], [false], [false]⟩ := by decide +kernel

/-- A QUBO model merged into it is converted, with columns in step. -/
def colsEx₂ : CModel := afterCalls (CModel.new .qubo "202") [.variables "x" [2],
  .add 10 (.var Ex.b0) (.str "") (.num 4) (.num 1) .none .none]

example : CMade colsEnv ((withSnd colsEx₂ (Col.merge colsEnv fun _ => 0)).run colsEx).state :=
  .merge _ _ _ colsEx_made (afterCalls_made _ (.new _ _))
example : ((withSnd colsEx₂ (Col.merge colsEnv fun _ => 0)).run colsEx).state.cols.name =
    ["x[0] (101)", "x[0]*x[1]", "x[0] (202)"] := by decide +kernel

end Sawatabi.Props
