import Verif.Model.Samples
import Verif.Spec.Samples
import Verif.Props.Depends
import Verif.Props.SolverMade
import Verif.Props.History
import Verif.Lemmas.NppStream

/-!
# Lemmas: the sample models
-/

namespace Sawatabi.Samples

open Props

variable {env : Env} {p : Physical}

/-! ## The exact solver on a problem with known optimum -/

/-- A physical model whose energy is known to depend on exactly the given labels, with its optimum. -/
structure Problem (labels : List String) (vt : VType) (E : ℚ) (good : (String → ℤ) → Prop) (p : Physical) : Prop where
  vtype : p.mtype.vtype = vt
  fromCalls : p.FromCalls
  nonempty : labels ≠ []
  same : ∀ f g : String → ℤ, (∀ v, vt.Domain (f v)) → (∀ v, vt.Domain (g v)) → (∀ v ∈ labels, f v = g v) →
    p.energy (fun v => (f v : ℚ)) = p.energy fun v => (g v : ℚ)
  needed : ∀ v ∈ labels, ∃ f g : String → ℤ, (∀ w, vt.Domain (f w)) ∧ (∀ w, vt.Domain (g w)) ∧ (∀ w, w ≠ v → f w = g w) ∧
    p.energy (fun w => (f w : ℚ)) ≠ p.energy fun w => (g w : ℚ)
  bound : ∀ f : String → ℤ, (∀ v, vt.Domain (f v)) → E ≤ p.energy fun v => (f v : ℚ)
  optimal : ∀ f : String → ℤ, (∀ v, vt.Domain (f v)) → (p.energy (fun v => (f v : ℚ)) = E ↔ good f)
  exists_good : ∃ f : String → ℤ, (∀ v, vt.Domain (f v)) ∧ good f
  local_ : ∀ f g : String → ℤ, (∀ v ∈ labels, f v = g v) → (good f ↔ good g)

theorem Problem.uses {labels : List String} {vt : VType} {E : ℚ} {good : (String → ℤ) → Prop} (h : Problem labels vt E good p)
    (v : String) : p.Uses v ↔ v ∈ labels := by
  rw [C26_depends h.fromCalls, h.vtype]
  refine ⟨?_, h.needed v⟩
  rintro ⟨f, g, hf, hg, hfg, hne⟩
  by_contra hv
  exact hne (h.same f g hf hg fun w hw => hfg w fun hc => hv (hc ▸ hw))

theorem Problem.finds {labels : List String} {vt : VType} {E : ℚ} {good : (String → ℤ) → Prop} (h : Problem labels vt E good p)
    (log : List Bqm) : ∃ res log', (localSolve none p).run log = .ok res log' ∧ Finds labels vt E good res := by
  have hne : ¬ Props.Empty p := by
    rintro ⟨h1, h2⟩
    obtain ⟨v, hv⟩ := List.exists_mem_of_ne_nil _ h.nonempty
    have := (h.uses v).mpr hv
    unfold Physical.Uses at this
    rw [h1, h2] at this
    simp [dkeys] at this
  obtain ⟨res, log', hr, g1, g2, _, g4⟩ := C57_all_assignments h.fromCalls hne log
  rw [h.vtype] at g1 g2
  simp only [h.uses] at g1 g2
  obtain ⟨f0, hf0, hg0⟩ := h.exists_good
  have hval : ∀ r ∈ res, ∀ v ∈ labels, value r.1 v = complete f0 r.1 v := by
    intro r hr v hv
    obtain ⟨a, ha⟩ := (dget_isSome_iff r.1 v).mpr (((g1 r hr).2.2.1 v).mpr hv)
    simp [value, complete, ha]
  have hdom : ∀ r ∈ res, ∀ v, vt.Domain (complete f0 r.1 v) := fun r hr => complete_domain (g1 r hr).2.2.2 hf0
  have hen : ∀ r ∈ res, r.2 = p.energy fun v => (complete f0 r.1 v : ℚ) := by
    intro r hr
    rw [(g1 r hr).1, energy_complete f0 fun v hv => ((g1 r hr).2.2.1 v).mpr ((h.uses v).mp hv)]
  have hopt : ∀ r ∈ res, r.2 = E ↔ good (value r.1) := by
    intro r hr
    rw [hen r hr, h.optimal _ (hdom r hr)]
    exact h.local_ _ _ fun v hv => (hval r hr v hv).symm
  refine ⟨res, log', hr, fun r hr => ⟨(g1 r hr).2.1, (g1 r hr).2.2.1⟩, fun r hr v hv => ?_, fun f hf => ?_, g4, fun r hr => ?_, hopt, ?_⟩
  · rw [hval r hr v hv]
    exact hdom r hr v
  · obtain ⟨r, hr, hget⟩ := g2 f fun v _ => hf v
    exact ⟨r, hr, fun v hv => by simp [value, hget v hv]⟩
  · rw [hen r hr]
    exact h.bound _ (hdom r hr)
  · obtain ⟨r, hr, hget⟩ := g2 f0 fun v _ => hf0 v
    refine ⟨r, hr, (hopt r hr).mpr ((h.local_ _ _ fun v hv => ?_).mp hg0)⟩
    simp [value, hget v hv]

/-! ## Models made of plain calls -/

/-- A model without constraints, with interactions of the given names and the energy `F`. -/
structure Plain (env : Env) (mt : MType) (ns : List String) (vars : List (String × VArray)) (F : Assign → ℚ) (m : LModel) : Prop where
  made : Made env KnownKeys m
  mtype : m.mtype = mt
  constraints : m.constraints = []
  unique : m.names.Nodup
  names : m.names = ns
  filled : m.Filled []
  vars_eq : m.vars = vars
  energy : ∀ ρ σ, m.energy ρ σ = F σ

variable {mt : MType} {ns : List String} {vars : List (String × VArray)} {F : Assign → ℚ} {m : LModel}

theorem Plain.new (env : Env) (mt : MType) (id : String) : Plain env mt [] [] (fun _ => 0) (LModel.new mt id) :=
  ⟨.new mt id, rfl, rfl, List.nodup_nil, rfl, ⟨fun r hr => (by cases hr), fun n hn => (by cases hn)⟩, rfl,
    fun ρ σ => by simp [LModel.energy, LModel.new, Coef.eval]⟩

theorem Plain.congr {G : Assign → ℚ} (h : Plain env mt ns vars F m) (hF : ∀ σ, F σ = G σ) : Plain env mt ns vars G m :=
  { h with energy := fun ρ σ => by rw [h.energy, hF] }

theorem Plain.rect (h : Plain env mt ns vars F m) : m.Rect := made_rect (fun _ _ h => h) h.made

theorem Plain.setVars {vs : List (String × VArray)} (h : Plain env mt ns vars F m) (hm : Made env KnownKeys { m with vars := vs }) :
    Plain env mt ns vs F { m with vars := vs } :=
  ⟨hm, h.mtype, h.constraints, h.unique, h.names, h.filled, rfl, h.energy⟩

theorem Plain.create (h : Plain env mt ns vars F m) {name : String} {sh : List Int} (hsh : sh ≠ []) (hpos : ∀ d ∈ sh, 0 < d)
    (hstar : '*' ∉ name.toList) :
    ∃ m', (createVars name sh).run m = .ok (stdArray name (sh.map Int.toNat) mt.vtype) m' ∧ m'.offset = m.offset ∧
      Plain env mt ns (dset vars name (stdArray name (sh.map Int.toNat) mt.vtype)) F m' := by
  have hrun : (createVars name sh).run m = .ok (stdArray name (sh.map Int.toNat) mt.vtype)
      { m with vars := dset vars name (stdArray name (sh.map Int.toNat) mt.vtype) } := by
    rw [createVars_run, if_neg hsh, (arrayCreate_spec _ _ _).1 ⟨hsh, hpos, hstar⟩, h.mtype]
    simp only [h.vars_eq]
  refine ⟨_, hrun, rfl, h.setVars ?_⟩
  have := Made.step m (.variables name sh) h.made trivial (fun _ _ hc => by cases hc)
  simpa only [Op.step, Op.call, Py.run_bind, hrun, Py.run_pure, Res.state] using this

theorem Plain.append (h : Plain env mt ns vars F m) {name : String} {old : VArray} (hold : dget vars name = some old) {sh : List Int}
    (hne : sh ≠ []) (hsh : elementwiseAdd (old.shape.map Int.ofNat) sh ≠ [])
    (hpos : ∀ d ∈ elementwiseAdd (old.shape.map Int.ofNat) sh, 0 < d) (hstar : '*' ∉ name.toList) :
    let a := stdArray name ((elementwiseAdd (old.shape.map Int.ofNat) sh).map Int.toNat) mt.vtype
    ∃ m', (appendVars name sh).run m = .ok a m' ∧ m'.offset = m.offset ∧ Plain env mt ns (dset vars name a) F m' := by
  intro a
  have hrun : (appendVars name sh).run m = .ok a { m with vars := dset vars name a } := by
    rw [appendVars_run, if_neg hne, h.vars_eq, hold]
    simp only
    rw [(arrayCreate_spec _ _ _).1 ⟨hsh, hpos, hstar⟩, h.mtype]
  refine ⟨_, hrun, rfl, h.setVars ?_⟩
  have := Made.step m (.append name sh) h.made trivial (fun _ _ hc => by cases hc)
  simpa only [Op.step, Op.call, Py.run_bind, hrun, Py.run_pure, Res.state] using this

theorem Plain.offset (h : Plain env mt ns vars F m) (hF : ∀ ρ, m.offset.eval ρ = 0) (q : ℚ) :
    ∃ m', (setOffset (.num q)).run m = .ok ⟨⟩ m' ∧ Plain env mt ns vars (fun σ => q + F σ) m' := by
  have hrun : (setOffset (.num q)).run m = .ok ⟨⟩ { m with offset := .num q } := rfl
  refine ⟨_, hrun, ?_, h.mtype, h.constraints, h.unique, h.names, ⟨h.filled.1, fun n hn => by cases hn⟩, h.vars_eq, ?_⟩
  · have := Made.step m (.setOffset (.num q)) h.made trivial (fun _ _ hc => by cases hc)
    simpa only [Op.step, Op.call, hrun, Res.state] using this
  · intro ρ σ
    rw [← h.energy ρ σ]
    unfold LModel.energy
    rw [hF]
    simp only [Coef.eval]
    ring

/-- The default name of an interaction. -/
def tname (name : String) : Target → String
  | .one i => arrayLabel name i
  | .two i j => if arrayLabel name i < arrayLabel name j then arrayLabel name i ++ "*" ++ arrayLabel name j
      else arrayLabel name j ++ "*" ++ arrayLabel name i

/-- The product of the variables. -/
def tvalue (name : String) (σ : Assign) : Target → ℚ
  | .one i => σ (arrayLabel name i)
  | .two i j => σ (arrayLabel name i) * σ (arrayLabel name j)

/-- The indices are in range, and those of a pair differ. -/
def Target.Ok (sh : List Nat) : Target → Prop
  | .one i => InShape i sh
  | .two i j => InShape i sh ∧ InShape j sh ∧ i ≠ j

theorem item_ok {name : String} {sh idx : List Nat} {vt : VType} (h : InShape idx sh) :
    item (stdArray name sh vt) idx = .ok ⟨vt, arrayLabel name idx⟩ := by
  unfold item
  rw [show (stdArray name sh vt).shape = sh from rfl, flatIndex_of_shape h]
  simp only
  rw [(stdArray_isArray name sh vt).order idx h]

theorem label_inj {name : String} {i j : List Nat} (h : arrayLabel name i = arrayLabel name j) : i = j := by
  rw [arrayLabel_eq, arrayLabel_eq] at h
  exact idxSuffix_inj (string_append_left_inj h)

theorem arg_ok {name : String} {sh : List Nat} {vt : VType} {t : Target} (h : t.Ok sh) :
    ∃ a r, t.arg (stdArray name sh vt) = .ok a ∧ a.Denotes r ∧ PyName.Names (.str "") r (tname name t) ∧
      (∀ n, PyName.Names (.str "") r n → n = tname name t) ∧ ∀ σ, a.product σ = tvalue name σ t := by
  have huniq : ∀ (r : Inter) (n n' : String), PyName.Names (.str "") r n → PyName.Names (.str "") r n' → n = n' := by
    intro r n n' h1 h2
    cases h1 with
    | given _ _ h0 => exact absurd rfl h0
    | lin v => cases h2 with
      | given _ _ h0 => exact absurd rfl h0
      | lin v => rfl
    | quad v w => cases h2 with
      | given _ _ h0 => exact absurd rfl h0
      | quad v w => rfl
  suffices h : ∃ a r, t.arg (stdArray name sh vt) = .ok a ∧ a.Denotes r ∧ PyName.Names (.str "") r (tname name t) ∧
      ∀ σ, a.product σ = tvalue name σ t by
    obtain ⟨a, r, h1, h2, h3, h4⟩ := h
    exact ⟨a, r, h1, h2, h3, fun n hn => huniq r n _ hn h3, h4⟩
  cases t with
  | one i =>
    refine ⟨.var ⟨vt, arrayLabel name i⟩, .lin ⟨vt, arrayLabel name i⟩, ?_, .var _, .lin _, fun _ => rfl⟩
    simp only [Target.arg]
    rw [item_ok h]
    rfl
  | two i j =>
    obtain ⟨hi, hj, hne⟩ := h
    have hl : arrayLabel name i ≠ arrayLabel name j := fun hc => hne (label_inj hc)
    have harg : Target.arg (stdArray name sh vt) (.two i j) =
        .ok (.tuple [some ⟨vt, arrayLabel name i⟩, some ⟨vt, arrayLabel name j⟩]) := by
      simp only [Target.arg]
      rw [item_ok hi, item_ok hj]
      rfl
    rcases lt_or_gt_of_ne hl with hlt | hlt
    · refine ⟨_, _, harg, .pair _ _ hlt, ?_, fun _ => rfl⟩
      simp only [tname, if_pos hlt]
      exact .quad _ _
    · refine ⟨_, _, harg, .swapped _ _ hlt, ?_, fun _ => rfl⟩
      simp only [tname, if_neg (not_lt_of_gt hlt)]
      exact .quad _ _

theorem Plain.add (h : Plain env mt ns vars F m) (now : ℚ) {name : String} {sh : List Nat} {vt : VType} {t : Target} (ht : t.Ok sh)
    (hnew : tname name t ∉ ns) (c : ℚ) :
    ∃ m', (add now (stdArray name sh vt) t c).run m = .ok ⟨⟩ m' ∧ m'.offset = m.offset ∧
      Plain env mt (ns ++ [tname name t]) vars (fun σ => F σ - c * tvalue name σ t) m' := by
  obtain ⟨a, r, ha, hd, hn, hu, hv⟩ := arg_ok (name := name) (vt := vt) ht
  obtain ⟨m', hr⟩ := (C02_add_succeeds_iff (now := now) h.rect (c := .num c) (s := .num 1) (attributes := .none) (ts := .none)).mpr
    ⟨⟨r, _, hd, hn, by rw [h.names]; exact hnew⟩, by simp, by simp, by simp, by simp⟩
  obtain ⟨row, f1, f2, f3, f4, f5, f6, f7, _, f8, f9, f10, f11, _, _⟩ := C02_add_frame hr
  have hinter : row.inter = r := by
    cases hd with
    | var v => cases hg : row.inter <;> rw [hg] at f2 <;> cases f2; rfl
    | pair v w hlt =>
      generalize row.inter = ri at f2
      cases f2 with
      | pair _ _ _ => rfl
      | swapped _ _ h' => exact absurd hlt (lt_asymm h')
    | swapped v w hlt =>
      generalize row.inter = ri at f2
      cases f2 with
      | swapped _ _ _ => rfl
      | pair _ _ h' => exact absurd hlt (lt_asymm h')
  have hnm : row.name = tname name t := hu _ (hinter ▸ f3)
  have hnames : m'.names = ns ++ [tname name t] := by
    unfold LModel.names
    rw [f1, List.map_append, ← h.names]
    simp [LModel.names, hnm]
  have hrun : (Samples.add now (stdArray name sh vt) t c).run m = .ok ⟨⟩ m' := by
    unfold Samples.add
    rw [ha]
    simpa only [Py.run_bind, Py.run_liftE] using hr
  refine ⟨m', hrun, f10, ?_, by rw [f8, h.mtype], by rw [f11, h.constraints], ?_, hnames, ⟨?_, ?_⟩, by rw [f9, h.vars_eq], ?_⟩
  · have := Made.step m (.add now a (.str "") (.num c) (.num 1) .none .none) h.made trivial (fun _ _ hc => by cases hc)
    simpa only [Op.step, Op.call, hr, Res.state] using this
  · rw [hnames, List.nodup_append]
    refine ⟨h.names ▸ h.unique, by simp, ?_⟩
    intro x hx y hy
    rw [List.mem_singleton] at hy
    subst hy
    rintro rfl
    exact hnew hx
  · intro r' hr' hrm
    rw [f1] at hr'
    rcases List.mem_append.mp hr' with hr' | hr'
    · exact h.filled.1 r' hr' hrm
    · rw [List.mem_singleton] at hr'
      subst hr'
      generalize r'.coef = x at f5
      generalize r'.scale = y at f6
      cases f5
      cases f6
      exact ⟨fun n hn => (by cases hn), fun n hn => (by cases hn)⟩
  · rw [f10]
    exact h.filled.2
  · intro ρ σ
    rw [C02_add_energy hr, h.energy, hv]
    simp only [PyCoef.value]
    ring

theorem Plain.addEach_aux (h : Plain env mt ns vars F m) (clk : Nat → ℚ) {name : String} {sh : List Nat} {vt : VType}
    (calls : List (Target × ℚ)) (k : Nat) (hok : ∀ c ∈ calls, c.1.Ok sh) (hnd : (ns ++ calls.map fun c => tname name c.1).Nodup) :
    ∃ m', ((calls.zipIdx k).forM fun c => Samples.add (clk c.2) (stdArray name sh vt) c.1.1 c.1.2).run m = .ok ⟨⟩ m' ∧
      m'.offset = m.offset ∧
      Plain env mt (ns ++ calls.map fun c => tname name c.1) vars (fun σ => F σ - (calls.map fun c => c.2 * tvalue name σ c.1).sum) m' := by
  induction calls generalizing m ns F k with
  | nil => exact ⟨m, rfl, rfl, by simpa using h⟩
  | cons c calls ih =>
    rw [List.zipIdx_cons, Py.run_forM_cons]
    have hnew : tname name c.1 ∉ ns := by
      intro hc
      exact (List.nodup_append.mp hnd).2.2 _ hc _ (by simp) rfl
    obtain ⟨m1, hr1, ho1, h1⟩ := h.add (clk k) (vt := vt) (hok c (by simp)) hnew c.2
    rw [hr1]
    obtain ⟨m2, hr2, ho2, h2⟩ := ih h1 (k + 1) (fun c hc => hok c (by simp [hc])) (by
      rw [List.append_assoc]
      simpa using hnd)
    refine ⟨m2, hr2, by rw [ho2, ho1], ?_⟩
    rw [List.append_assoc] at h2
    refine Plain.congr (F := _) (by simpa using h2) fun σ => ?_
    simp only [List.map_cons, List.sum_cons]
    ring

/-- A run of `addEach` on a model. -/
theorem Plain.addEach (h : Plain env mt ns vars F m) (clk : Nat → ℚ) {name : String} {sh : List Nat} {vt : VType}
    {calls : List (Target × ℚ)} (hok : ∀ c ∈ calls, c.1.Ok sh) (hnd : (ns ++ calls.map fun c => tname name c.1).Nodup) :
    ∃ m', (Samples.addEach clk (stdArray name sh vt) calls).run m = .ok ⟨⟩ m' ∧ m'.offset = m.offset ∧
      Plain env mt (ns ++ calls.map fun c => tname name c.1) vars (fun σ => F σ - (calls.map fun c => c.2 * tvalue name σ c.1).sum) m' :=
  h.addEach_aux clk calls 0 hok hnd

theorem Plain.physical (h : Plain env mt ns vars F m) (clks : Nat → Nat → ℚ) (ids : Nat → String) :
    ∃ p m', (toPhysical env clks ids []).run m = .ok p m' ∧ p.mtype = mt ∧ p.FromCalls ∧ ∀ σ, p.energy σ = F σ := by
  obtain ⟨p, m', hp⟩ := (C19_succeeds_partial (env := env) (clks := clks) (ids := ids) h.rect h.unique h.constraints).mpr h.filled
  refine ⟨p, m', hp, by rw [physical_mtype hp, h.mtype], made_fromCalls h.made (by simp) hp, fun σ => ?_⟩
  rw [C19_energy_partial h.rect h.constraints hp (ρ := fun _ => 0) (fun n q hn => by cases hn), h.energy]

end Sawatabi.Samples
