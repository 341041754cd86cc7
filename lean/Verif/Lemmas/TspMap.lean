import Verif.Lemmas.Tsp
import Verif.Props.Pyqubo
import Verif.Props.EndToEnd
import Verif.Props.History
import Verif.Lemmas.NppRun

/-!
# The model that the travelling salesperson application builds
-/

namespace Sawatabi.Tsp

open Finset Sawatabi.Stream Sawatabi.Props

/-! ## The Hamiltonian -/

/-- The variable for city `j` at time `i`. -/
def cityVar (i j : Nat) : PVar := ⟨.binary, lab i j⟩

theorem item2_ok {n i j : Nat} {x : VArray} (hx : IsArray "city" [n, n] .binary x) (hi : i < n) (hj : j < n) :
    item2 x i j = .ok (cityVar i j) := by
  have hin : InShape [i, j] [n, n] := .cons hi (.cons hj .nil)
  unfold item2
  rw [hx.shape, flatIndex_of_shape hin]
  simp only
  rw [hx.order [i, j] hin]
  rfl

/-- What is known about an expression: its value, its labels, its placeholders and its degree. -/
structure Sem (n k : Nat) (e : HExpr) (V : PEnv → Assign → ℚ) : Prop where
  eval : ∀ ρ σ, e.eval ρ σ = V ρ σ
  labels : ∀ l ∈ e.labels, ∃ i < n, ∃ j < n, l = lab i j
  placeholders : ∀ p ∈ e.placeholders, p = "time" ∨ p = "city"
  degree : e.degree ≤ k

variable {n k l : Nat}

theorem Sem.num (q : ℚ) : Sem n k (.num q) fun _ _ => q :=
  ⟨fun _ _ => rfl, by simp [HExpr.labels], by simp [HExpr.placeholders], Nat.zero_le _⟩

theorem Sem.var {i j : Nat} (hi : i < n) (hj : j < n) : Sem n 1 (.var (cityVar i j)) fun _ σ => σ (lab i j) :=
  ⟨fun _ _ => rfl, fun l hl => ⟨i, hi, j, hj, by simpa [HExpr.labels, cityVar] using hl⟩, by simp [HExpr.placeholders], le_rfl⟩

theorem Sem.ph {p : String} (hp : p = "time" ∨ p = "city") : Sem n k (.ph p) fun ρ _ => ρ p :=
  ⟨fun _ _ => rfl, by simp [HExpr.labels], fun q hq => by
    rw [List.mem_singleton.mp (show q ∈ [p] from hq)]; exact hp, Nat.zero_le _⟩

theorem Sem.add {a b : HExpr} {V W : PEnv → Assign → ℚ} (ha : Sem n k a V) (hb : Sem n k b W) :
    Sem n k (.add a b) fun ρ σ => V ρ σ + W ρ σ :=
  ⟨fun ρ σ => by simp only [HExpr.eval, ha.eval, hb.eval],
   fun l hl => (List.mem_append.mp (show l ∈ a.labels ++ b.labels from hl)).elim (ha.labels l) (hb.labels l),
   fun l hl => (List.mem_append.mp (show l ∈ a.placeholders ++ b.placeholders from hl)).elim (ha.placeholders l) (hb.placeholders l),
   max_le ha.degree hb.degree⟩

theorem Sem.mul {a b : HExpr} {V W : PEnv → Assign → ℚ} (ha : Sem n k a V) (hb : Sem n l b W) :
    Sem n (k + l) (.mul a b) fun ρ σ => V ρ σ * W ρ σ :=
  ⟨fun ρ σ => by simp only [HExpr.eval, ha.eval, hb.eval],
   fun l hl => (List.mem_append.mp (show l ∈ a.labels ++ b.labels from hl)).elim (ha.labels l) (hb.labels l),
   fun l hl => (List.mem_append.mp (show l ∈ a.placeholders ++ b.placeholders from hl)).elim (ha.placeholders l) (hb.placeholders l),
   Nat.add_le_add ha.degree hb.degree⟩

theorem Sem.constraint {a : HExpr} {V : PEnv → Assign → ℚ} (ha : Sem n k a V) (l : String) : Sem n k (.constraint a l) V :=
  ⟨ha.eval, ha.labels, ha.placeholders, ha.degree⟩

theorem Sem.congr {a : HExpr} {V W : PEnv → Assign → ℚ} (ha : Sem n k a V) (h : ∀ ρ σ, V ρ σ = W ρ σ) : Sem n k a W :=
  ⟨fun ρ σ => (ha.eval ρ σ).trans (h ρ σ), ha.labels, ha.placeholders, ha.degree⟩

theorem sem_fold {g : Nat} {F : HExpr → Nat → Except Err HExpr} {v : Nat → PEnv → Assign → ℚ} {k₀ : Nat}
    (h : ∀ acc V k, k < k₀ → Sem n g acc V → ∃ e, F acc k = .ok e ∧ Sem n g e fun ρ σ => V ρ σ + v k ρ σ)
    {acc : HExpr} {V : PEnv → Assign → ℚ} (ha : Sem n g acc V) :
    ∃ e, (List.range k₀).foldlM F acc = .ok e ∧ Sem n g e fun ρ σ => V ρ σ + ∑ k ∈ range k₀, v k ρ σ := by
  induction k₀ with
  | zero => exact ⟨acc, rfl, ha.congr fun ρ σ => by simp⟩
  | succ k₀ ih =>
    obtain ⟨e, he, hs⟩ := ih fun acc V k hk => h acc V k (Nat.lt_succ_of_lt hk)
    obtain ⟨e', he', hs'⟩ := h e _ k₀ (Nat.lt_succ_self _) hs
    refine ⟨e', ?_, hs'.congr fun ρ σ => by rw [Finset.sum_range_succ]; ring⟩
    rw [List.range_succ, List.foldlM_append, he]
    simp only [Except.bind_ok, List.foldlM_cons, List.foldlM_nil, he']
    rfl

theorem sumExpr_sem {g : Nat} {f : Nat → Except Err HExpr} {v : Nat → PEnv → Assign → ℚ} {k₀ : Nat}
    (h : ∀ k < k₀, ∃ e, f k = .ok e ∧ Sem n g e (v k)) :
    ∃ e, sumExpr k₀ f = .ok e ∧ Sem n g e fun ρ σ => ∑ k ∈ range k₀, v k ρ σ := by
  obtain ⟨e, he, hs⟩ := sem_fold (n := n) (g := g) (F := fun acc k => do return .add acc (← f k)) (v := v) (k₀ := k₀)
    (fun acc V k hk ha => by
      obtain ⟨e, he, hs⟩ := h k hk
      exact ⟨.add acc e, by rw [he]; rfl, ha.add hs⟩) (Sem.num (n := n) (k := g) 0)
  exact ⟨e, he, hs.congr fun ρ σ => by simp⟩

theorem oneHot_sem {s : HExpr} {V : PEnv → Assign → ℚ} (hs : Sem n 1 s V) (l : String) :
    Sem n 2 (oneHot s l) fun ρ σ => (V ρ σ - 1) ^ 2 :=
  (Sem.constraint ((hs.add (Sem.num _)).mul (hs.add (Sem.num _))) l).congr fun ρ σ => by ring

theorem timeConst_sem {x : VArray} (hx : IsArray "city" [n, n] .binary x) :
    ∃ e, timeConst n x = .ok e ∧ Sem n 2 e fun _ σ => ∑ i ∈ range n, (∑ j ∈ range n, σ (lab i j) - 1) ^ 2 := by
  obtain ⟨e, he, hs⟩ := sem_fold (n := n) (g := 2) (k₀ := n) (F := fun acc i => do
      let s ← sumExpr n fun j => do return .var (← item2 x i j)
      return .add acc (oneHot s ("time" ++ Nat.repr i))) (v := fun i _ σ => (∑ j ∈ range n, σ (lab i j) - 1) ^ 2)
    (fun acc V i hi ha => by
      obtain ⟨s, hs, hsem⟩ := sumExpr_sem (n := n) (g := 1) (k₀ := n) (f := fun j => do return .var (← item2 x i j))
        (v := fun j _ σ => σ (lab i j)) fun j hj => ⟨.var (cityVar i j), by rw [item2_ok hx hi hj]; rfl, Sem.var hi hj⟩
      exact ⟨.add acc (oneHot s ("time" ++ Nat.repr i)), by simp only [hs]; rfl, ha.add (oneHot_sem hsem _)⟩)
    (Sem.num (n := n) (k := 2) 0)
  exact ⟨e, he, hs.congr fun ρ σ => by simp⟩

theorem cityConst_sem {x : VArray} (hx : IsArray "city" [n, n] .binary x) :
    ∃ e, cityConst n x = .ok e ∧ Sem n 2 e fun _ σ => ∑ j ∈ range n, (∑ i ∈ range n, σ (lab i j) - 1) ^ 2 := by
  obtain ⟨e, he, hs⟩ := sem_fold (n := n) (g := 2) (k₀ := n) (F := fun acc j => do
      let s ← sumExpr n fun i => do return .var (← item2 x i j)
      return .add acc (oneHot s ("city" ++ Nat.repr j))) (v := fun j _ σ => (∑ i ∈ range n, σ (lab i j) - 1) ^ 2)
    (fun acc V j hj ha => by
      obtain ⟨s, hs, hsem⟩ := sumExpr_sem (n := n) (g := 1) (k₀ := n) (f := fun i => do return .var (← item2 x i j))
        (v := fun i _ σ => σ (lab i j)) fun i hi => ⟨.var (cityVar i j), by rw [item2_ok hx hi hj]; rfl, Sem.var hi hj⟩
      exact ⟨.add acc (oneHot s ("city" ++ Nat.repr j)), by simp only [hs]; rfl, ha.add (oneHot_sem hsem _)⟩)
    (Sem.num (n := n) (k := 2) 0)
  exact ⟨e, he, hs.congr fun ρ σ => by simp⟩

variable {κ : Type}

theorem travel_sem (dist : κ → κ → ℚ) {els : List (El (City κ))} (hn : els.length = n) {x : VArray}
    (hx : IsArray "city" [n, n] .binary x) :
    ∃ e, travel dist els x = .ok e ∧ Sem n 2 e fun _ σ => ∑ i ∈ range n, ∑ j ∈ range n, ∑ k ∈ range n,
      distances dist els i j * σ (lab k i) * σ (lab ((k + 1) % n) j) := by
  have hk : ∀ i < n, ∀ j < n, ∀ acc V k, k < n → Sem n 2 acc V →
      ∃ e, (do
        let a ← placeAt els i
        let b ← placeAt els j
        let v ← item2 x k i
        let w ← item2 x ((k + 1) % n) j
        return HExpr.add acc (.mul (.mul (.num (dist a b)) (.var v)) (.var w)) : Except Err HExpr) = .ok e ∧
      Sem n 2 e fun ρ σ => V ρ σ + distances dist els i j * σ (lab k i) * σ (lab ((k + 1) % n) j) := by
    intro i hi j hj acc V k hk ha
    have hk' : (k + 1) % n < n := Nat.mod_lt _ (by omega)
    have hi' : els[i]? = some els[i] := List.getElem?_eq_getElem (by omega)
    have hj' : els[j]? = some els[j] := List.getElem?_eq_getElem (by omega)
    refine ⟨.add acc (.mul (.mul (.num (dist els[i].data.place els[j].data.place)) (.var (cityVar k i))) (.var (cityVar ((k + 1) % n) j))),
      ?_, ?_⟩
    · rw [item2_ok hx hk hi, item2_ok hx hk' hj]
      unfold placeAt
      rw [hi', hj']
      rfl
    · refine (ha.add ((((Sem.num (k := 0) _).mul (Sem.var hk hi))).mul (Sem.var hk' hj))).congr fun ρ σ => ?_
      unfold distances
      rw [hi', hj']
  unfold travel
  rw [hn]
  obtain ⟨e, he, hs⟩ := sem_fold (n := n) (g := 2) (k₀ := n) (v := fun i _ σ => ∑ j ∈ range n, ∑ k ∈ range n,
      distances dist els i j * σ (lab k i) * σ (lab ((k + 1) % n) j)) (fun acc V i hi ha =>
    sem_fold (n := n) (g := 2) (k₀ := n) (v := fun j _ σ => ∑ k ∈ range n, distances dist els i j * σ (lab k i) * σ (lab ((k + 1) % n) j))
      (fun acc V j hj ha => sem_fold (n := n) (g := 2) (k₀ := n)
        (v := fun k _ σ => distances dist els i j * σ (lab k i) * σ (lab ((k + 1) % n) j))
        (fun acc V k hk' ha => hk i hi j hj acc V k hk' ha) ha) ha) (Sem.num (n := n) (k := 2) 0)
  exact ⟨e, he, hs.congr fun ρ σ => by simp⟩

theorem hamiltonian_sem (dist : κ → κ → ℚ) {els : List (El (City κ))} (hn : els.length = n) {x : VArray}
    (hx : IsArray "city" [n, n] .binary x) :
    ∃ e, hamiltonian dist els x = .ok e ∧ Sem n 2 e fun ρ σ =>
      cost n (distances dist els) (ρ "time") (ρ "city") fun i j => σ (lab i j) := by
  obtain ⟨t, ht, hts⟩ := timeConst_sem hx
  obtain ⟨c, hc, hcs⟩ := cityConst_sem hx
  obtain ⟨d, hd, hds⟩ := travel_sem dist hn hx
  refine ⟨.add (.add d (.mul (.ph "time") t)) (.mul (.ph "city") c), ?_, ?_⟩
  · unfold hamiltonian
    rw [hn, ht, hc, hd]
    rfl
  · exact ((hds.add ((Sem.ph (k := 0) (.inl rfl)).mul hts)).add ((Sem.ph (k := 0) (.inr rfl)).mul hcs)).congr fun ρ σ => rfl

/-! ## The import -/

theorem negCoef_placeholders (c : Coef) : (negCoef c).placeholders = c.placeholders := by
  cases c with
  | num q => rfl
  | expr e => simp [negCoef, Coef.placeholders, PExpr.placeholders]

theorem loop_rows {now : ℚ} (l : List ((String × String) × Coef)) {m m' : LModel} {pm pm' : PModel}
    (h : (l.forM (fromPyquboStep now)).run (m, pm) = .ok ⟨⟩ (m', pm')) :
    ∀ r ∈ m'.rows, r ∈ m.rows ∨ ∃ kv ∈ l, r.coef = negCoef kv.2 ∧ r.scale = .num 1 := by
  induction l generalizing m pm with
  | nil =>
    rw [Py.run_forM_nil] at h
    cases h
    exact fun r hr => .inl hr
  | cons kv l ih =>
    rw [Py.run_forM_cons] at h
    cases hs : (fromPyquboStep now kv).run (m, pm) with
    | error e s => rw [hs] at h; cases h
    | ok u s =>
      rw [hs] at h
      obtain ⟨m1, pm1⟩ := s
      intro r hr
      rcases ih h r hr with h1 | ⟨kv', h1, h2⟩
      · rw [step_run] at hs
        simp only at hs
        split at hs
        · cases hs
        split at hs
        · cases hs
        split at hs
        · rename_i m2 hadd
          obtain ⟨rfl, _⟩ : m2 = m1 ∧ _ = pm1 := by simpa using hs
          obtain ⟨row, hrows, _, _, _, hc, hsc, _⟩ := C02_add_frame hadd
          rw [hrows, List.mem_append, List.mem_singleton] at h1
          rcases h1 with h1 | rfl
          · exact .inl h1
          · right
            refine ⟨kv, List.mem_cons_self, ?_, ?_⟩
            · generalize hcoef : r.coef = c at hc ⊢
              cases hk : negCoef kv.2 <;> rw [hk] at hc <;> cases hc <;> rfl
            · generalize hscale : r.scale = c at hsc ⊢
              cases hsc; rfl
        · cases hs
      · exact .inr ⟨kv', List.mem_cons_of_mem _ h1, h2⟩

/-- The model of a window with `n` cities. -/
structure Good (env : Env) (n : Nat) (d : Nat → Nat → ℚ) (m : LModel) : Prop where
  mtype : m.mtype = .qubo
  made : Made env KnownKeys m
  reach : ∃ id, Reach env (NameSafe env) (LModel.new .qubo id) m
  constraints : m.constraints = []
  filled : m.Filled weights
  energy : ∀ (ρ : PEnv) (σ : Assign), σ.IsBinary → m.energy ρ σ = cost n d (ρ "time") (ρ "city") fun i j => σ (lab i j)
  vars : ∃ a, m.vars = [("city", a)] ∧ IsArray "city" [n, n] .binary a

theorem mapping_ok {S : Type} (env : Env) {dist : κ → κ → ℚ} {compile : HExpr → PModel} (newId : String) (now : ℚ)
    (prev : Option S) {els : List (El (City κ))} (inc out : List (El (City κ))) (hne : els ≠ [])
    (hcomp : ∀ x h, IsArray "city" [els.length, els.length] .binary x → hamiltonian dist els x = .ok h → Compiles h (compile h))
    {m : LModel} (hm : m.mtype = .qubo) :
    ∃ m', (mapping dist compile newId now prev els inc out).run m = .ok m' m ∧ Good env els.length (distances dist els) m' := by
  have hpos : 0 < els.length := List.length_pos_iff.mpr hne
  let a := stdArray "city" [els.length, els.length] .binary
  have ha : IsArray "city" [els.length, els.length] .binary a := stdArray_isArray _ _ _
  let m1 : LModel := { LModel.new .qubo newId with vars := [("city", a)] }
  have happ : (appendVars "city" [(els.length : Int), (els.length : Int)]).run (LModel.new .qubo newId) = .ok a m1 := by
    rw [appendVars_run, if_neg (by simp)]
    simp only [LModel.new, dget]
    rw [createVars_run, if_neg (by simp), (arrayCreate_spec _ _ _).1]
    · rfl
    · refine ⟨by simp, ?_, by decide⟩
      intro d hd
      simp only [List.mem_cons, List.not_mem_nil, or_false, or_self] at hd
      omega
  have hv1 : VarsOk m1 := by
    have := appendVars_ok "city" [(els.length : Int), (els.length : Int)] _ (new_varsOk .qubo newId)
    rw [happ] at this
    exact this
  have hmade1 : Made env KnownKeys m1 := by
    have := Made.step (env := env) (P := KnownKeys) _ (.append "city" [(els.length : Int), (els.length : Int)]) (.new .qubo newId)
      trivial (fun clk o e => (by cases e))
    simpa only [Op.step, Op.call, Py.run_bind, happ, Py.run_pure, Res.state] using this
  have hreach1 : Reach env (NameSafe env) (LModel.new .qubo newId) m1 := by
    have := Reach.step (env := env) (P := NameSafe env) _ (.append "city" [(els.length : Int), (els.length : Int)])
      (Reach.start (m₀ := LModel.new .qubo newId)) trivial
    simpa only [Op.step, Op.call, Py.run_bind, happ, Py.run_pure, Res.state] using this
  obtain ⟨h, hh, hsem⟩ := hamiltonian_sem dist rfl ha
  have hc := hcomp a h ha hh
  have hlab : ∀ l ∈ h.labels, Registered m1 (compile h) l := by
    intro l hl
    obtain ⟨i, hi, j, hj, rfl⟩ := hsem.labels l hl
    exact ⟨"city", [i, j], a, hc.struct "city" [i, j] (by decide) hl, by simp [m1, dget], by
      rw [ha.shape]; exact .cons hi (.cons hj .nil)⟩
  obtain ⟨m2, pm2, h2⟩ := C42_success (now := now) (made_rect (fun _ _ h => h) hmade1) hv1 hc.labelled rfl
    (fun kv hkv => ⟨hlab _ (hc.labels kv hkv).1, hlab _ (hc.labels kv hkv).2⟩) hc.once
  obtain ⟨_, _, hoff, hvars, hmt, hcon, _, _⟩ := C42_energy_partial hv1 hc.labelled h2
  refine ⟨m2, ?_, hmt, ?_, ⟨newId, ?_⟩, hcon, ⟨?_, ?_⟩, ?_, ⟨a, hvars, ha⟩⟩
  · unfold mapping
    have hmp : m.empty newId = LModel.new .qubo newId := by unfold LModel.empty; rw [hm]
    simp only [Py.run_bind, Py.run_get, hpos, if_true, gt_iff_lt, hmp]
    simp only [onNew, happ, Py.run_pure, Py.run_bind, Py.run_liftE, hh, h2]
  · have := Made.step (env := env) (P := KnownKeys) _ (.fromPyqubo now (compile h)) hmade1 trivial (fun clk o e => (by cases e))
    simpa only [Op.step, Op.call, withSnd, h2, Res.state] using this
  · have := Reach.step (env := env) (P := NameSafe env) _ (.fromPyqubo now (compile h)) hreach1 trivial
    simpa only [Op.step, Op.call, withSnd, h2, Res.state] using this
  · intro r hr _
    rw [fromPyqubo_run] at h2
    split at h2
    · rename_i s hs
      obtain ⟨m3, pm3⟩ := s
      obtain ⟨rfl, rfl⟩ : _ = m2 ∧ pm3 = pm2 := by simpa using h2
      rcases loop_rows _ hs r hr with h3 | ⟨kv, hkv, h4, h5⟩
      · cases h3
      · rw [h4, h5, negCoef_placeholders]
        refine ⟨fun p hp => ?_, fun p hp => (by cases hp)⟩
        rcases hsem.placeholders p (hc.placeholders kv hkv p hp) with rfl | rfl <;> simp [weights]
    · cases h2
  · rw [hoff]
    intro p hp
    rcases hsem.placeholders p (hc.offset p hp) with rfl | rfl <;> simp [weights]
  · intro ρ σ hb
    rw [C42_import_energy hv1 hc.labelled (by intro r hr; cases hr) h2 ρ σ hb, hc.energy ρ σ hb, hsem.eval]

end Sawatabi.Tsp
