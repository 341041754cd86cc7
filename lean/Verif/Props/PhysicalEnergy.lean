import Verif.Lemmas.Prune
import Verif.Props.Conversion
import Verif.Props.Constraints
import Verif.Spec.Physical

/-!
# Energy of the physical model (C19, C20, C21)
-/

namespace Sawatabi.Props

variable {m m' : LModel} {env : Env} {clks : Nat → Nat → ℚ} {ids : Nat → String} {ph : List (String × ℚ)} {p : Physical}

/-! ## The energy after the constraint loop -/

theorem offset_foldl (ρ : PEnv) (bs : List LModel) (o : Coef) :
    (bs.foldl (fun o b => o.add b.offset) o).eval ρ = o.eval ρ + (bs.map fun b => b.offset.eval ρ).sum := by
  induction bs generalizing o with
  | nil => simp
  | cons b bs ih => rw [List.foldl_cons, ih, Coef.eval_add, List.map_cons, List.sum_cons]; ring

theorem sum_flatMap_term (ρ : PEnv) (σ : Assign) (bs : List LModel) :
    ((bs.flatMap (·.rows)).map (Row.term ρ σ)).sum = (bs.map fun b => (b.rows.map (Row.term ρ σ)).sum).sum := by
  rw [List.map_flatMap, sum_flatMap]

theorem _root_.Sawatabi.Absorbed.energy {a a₁ : LModel} {bs : List LModel} (h : Absorbed a bs a₁) (ρ : PEnv) (σ : Assign) :
    a₁.energy ρ σ = a.energy ρ σ + (bs.map fun b => b.energy ρ σ).sum := by
  have hr : (a₁.rows.map (Row.term ρ σ)).sum =
      (a.rows.map (Row.term ρ σ)).sum + (bs.map fun b => (b.rows.map (Row.term ρ σ)).sum).sum := by
    rw [← sum_map_anon (Row.term ρ σ) (fun _ => rfl), h.rows, sum_map_anon (Row.term ρ σ) (fun _ => rfl), List.map_append,
      List.sum_append, sum_flatMap_term]
  have hs : (bs.map fun b => b.energy ρ σ).sum =
      (bs.map fun b => b.offset.eval ρ).sum - (bs.map fun b => (b.rows.map (Row.term ρ σ)).sum).sum := by
    clear h hr
    induction bs with
    | nil => simp
    | cons b bs ih =>
      simp only [List.map_cons, List.sum_cons, ih]
      unfold LModel.energy
      ring
  unfold LModel.energy at hs ⊢
  rw [hr, h.offset, offset_foldl, hs]
  ring

theorem _root_.Sawatabi.Conversion.energy {bs : List LModel} {m₁ : LModel} {g : Groups} {off : ℚ} {m₂ : LModel}
    (h : Conversion env clks ids ph m p m' bs m₁ g off m₂) (hm : m.Rect) {ρ : PEnv} (hρ : ρ.Extends ph) (σ : Assign) :
    p.energy σ = m.energy ρ σ + (bs.map fun b => b.energy ρ σ).sum := by
  rw [h.result, buildPhysical_energy hρ (h.rect hm).len h.group h.offset, h.absorbed.energy]

/-! ## C19: models without constraints -/

/-- The physical energy is the logical energy. -/
theorem C19_energy_partial (hm : m.Rect) (hc : m.constraints = []) (h : (toPhysical env clks ids ph).run m = .ok p m')
    {ρ : PEnv} (hρ : ρ.Extends ph) (σ : Assign) : p.energy σ = m.energy ρ σ := by
  obtain ⟨bs, m₁, g, off, m₂, h⟩ := toPhysical_ok h
  have := h.models
  rw [hc] at this
  cases this
  rw [h.energy hm hρ]
  simp

/-- Whatever the state: only the first `length` interactions count (all of them in a rectangular state). -/
theorem C19_energy_prefix (hc : m.constraints = []) (h : (toPhysical env clks ids ph).run m = .ok p m')
    {ρ : PEnv} (hρ : ρ.Extends ph) (σ : Assign) :
    p.energy σ = LModel.energy ρ σ { m with rows := m.rows.take m.length.toNat } := by
  obtain ⟨bs, m₁, g, off, m₂, h⟩ := toPhysical_ok h
  have hl := h.loop
  rw [hc] at hl
  cases hl
  have hg := h.group
  obtain ⟨hg, hlen⟩ := group_prefix hg
  have hl : (m.rows.take m.length.toNat).length = m.length.toNat := by simp; omega
  have hs : ∃ m₀ : LModel, m₀ = { m with rows := m.rows.take m.length.toNat, length := m.length.toNat } := ⟨_, rfl⟩
  obtain ⟨m₀, hm₀⟩ := hs
  have hl₀ : m₀.length = m₀.rows.length := by rw [hm₀]; simp only [hl]
  have hg' : group ph m₀ = .ok g := by
    rw [group_ok (g := g) hl₀, hm₀]
    exact hg
  have := buildPhysical_energy hρ (m := m₀) hl₀ hg' (off := off) (by rw [hm₀]; exact h.offset) σ
  rw [hm₀] at this
  rw [h.result]
  exact this

/-- The conversion succeeds exactly if the dictionary has all placeholders that occur. -/
theorem C19_succeeds_partial (hm : m.Rect) (hu : m.names.Nodup) (hc : m.constraints = []) :
    (∃ p m', (toPhysical env clks ids ph).run m = .ok p m') ↔ m.Filled ph := by
  have hmul : ∀ r : Row, (∃ q, (r.coef.mul r.scale).resolve ph = .ok q) ↔
      (∀ n ∈ r.coef.placeholders, n ∈ ph.map (·.1)) ∧ ∀ n ∈ r.scale.placeholders, n ∈ ph.map (·.1) := by
    intro r
    rw [Coef.resolve_ok_iff]
    simp only [Coef.placeholders_mul]
    exact ⟨fun h => ⟨fun n hn => h n (.inl hn), fun n hn => h n (.inr hn)⟩, fun h n hn => hn.elim (h.1 n) (h.2 n)⟩
  constructor
  · rintro ⟨p, m', h⟩
    obtain ⟨bs, m₁, g, off, m₂, h⟩ := toPhysical_ok h
    have hl := h.loop
    rw [hc] at hl
    cases hl
    have hg := h.group
    rw [group_ok (g := g) hm.len] at hg
    refine ⟨fun r hr hrm => ?_, ?_⟩
    · exact (hmul r).mp ((groupFold_total ph m.rows _).mp ⟨g, hg⟩ r hr hrm)
    · exact Coef.resolve_ok_iff.mp ⟨off, h.offset⟩
  · rintro ⟨h1, h2⟩
    obtain ⟨g, hg⟩ := (groupFold_total ph m.rows ⟨[], [], []⟩).mpr fun r hr hrm => (hmul r).mpr (h1 r hr hrm)
    obtain ⟨off, ho⟩ := Coef.resolve_ok_iff.mpr h2
    have hg' : group ph m = .ok g := by rw [group_ok (g := g) hm.len]; exact hg
    have hw : g.willRemove = (m.rows.filter (·.removed)).map (·.name) := by
      simpa using groupFold_removed m.rows _ _ hg
    have hp := popRows_prune hm hu g.willRemove (by rw [hw]; exact (List.filter_sublist.map _).nodup hu) (by
      intro n hn
      rw [hw] at hn
      obtain ⟨r, hr, rfl⟩ := List.mem_map.mp hn
      exact List.mem_map_of_mem (List.mem_filter.mp hr).1)
    refine ⟨buildPhysical m g off, markClean (m.prune fun r => !g.willRemove.contains r.name), ?_⟩
    · rw [toPhysical_run, hc]
      simp only [List.zipIdx_nil, Py.run_forM_nil, hg', ho]
      rw [show restored m m = m from rfl, hp]

/-- In a ragged state an interaction can be missing from the physical model. The state is reachable: an attribute
introduced by `update_interaction`, the interaction removed and converted, then an `add_interaction` with that
attribute, which raises after it has appended the interaction. -/
theorem C19_ragged_refuted :
    let env : Env := ⟨0, fun _ => ""⟩
    let m := Ex.after (LModel.new .ising "101") do
      let _ ← createVars "x" [2]
      addInteraction 1 (.var Ex.x0) (.str "") (.num 2) (.num 1) .none .none
      updateInteraction 0 1 .none (.str "x[0]") none none (.dict [("a", .num 1)]) none
      removeInteraction .none (.str "x[0]")
      let _ ← toPhysical env (fun _ _ => 0) (fun _ => "1") []
      addInteraction 2 (.var Ex.x1) (.str "") (.num 5) (.num 1) (.dict [("a", .num 1)]) .none
    ∃ p m', (toPhysical env (fun _ _ => 0) (fun _ => "1") []).run m = .ok p m' ∧ m.constraints = [] ∧
      m.names = ["x[1]"] ∧ p.energy (fun _ => 1) = 0 ∧ m.energy (fun _ => 0) (fun _ => 1) = -5 := by
  refine ⟨_, _, rfl, rfl, ?_, ?_⟩
  all_goals decide +kernel

example : Ex.ising.Rect := by
  refine ⟨by decide, by decide, by decide, by decide⟩

/-! ## C20: constraints of a QUBO model -/

/-- A constraint whose model can be built has pairwise distinct variables. -/
theorem equality_disjoint {l : String} {s : ℚ} {v1 v2 : List PVar} (hg : (Constraint.equality l s v1 v2).Good)
    (hd : (Constraint.equality l s v1 v2).Distinct) : ((v1 ++ v2).map (·.label)).Nodup := by
  rw [List.map_append, List.nodup_append]
  refine ⟨hd.1, hd.2, ?_⟩
  intro a ha b hb
  obtain ⟨v, hv, rfl⟩ := List.mem_map.mp ha
  obtain ⟨w, hw, rfl⟩ := List.mem_map.mp hb
  have hm : Item.pair v w (2 * s) ∈ (Constraint.equality l s v1 v2).items := by
    simp only [Constraint.items, List.mem_append]
    right
    exact List.mem_flatMap.mpr ⟨v, hv, List.mem_map.mpr ⟨w, hw, rfl⟩⟩
  exact hg.2 _ hm

/-- The energy of a constraint's model is its penalty. -/
theorem toModel_penalty {now : ℚ} {id : String} {c : Constraint} {cm : LModel} (h : c.toModel now id = .ok cm)
    (hd : c.Distinct) (ρ : PEnv) {σ : Assign} (hb : σ.IsBinary) : cm.energy ρ σ = c.penalty σ := by
  rw [toModel_energy h]
  have hg := (Constraint.toModel_ok h).1
  cases c with
  | nHot l s vs n => rw [nHot_sum hb l s n hd, total_ones hb]; rfl
  | zeroOrOneHot l s vs => rw [zeroOrOneHot_sum hb l s hd, total_ones hb]; rfl
  | equality l s v1 v2 => rw [equality_sum hb l s (equality_disjoint hg hd), total_ones hb, total_ones hb]; rfl

theorem forall₂_zipIdx_sum {α β : Type} {R : α × Nat → β → Prop} {f : β → ℚ} {g : α → ℚ} {cs : List α} {bs : List β}
    (h : List.Forall₂ R cs.zipIdx bs) (hf : ∀ p b, R p b → p.1 ∈ cs → f b = g p.1) :
    (bs.map f).sum = (cs.map g).sum := by
  have key : ∀ (k : Nat) (cs : List α) (bs : List β), List.Forall₂ R (cs.zipIdx k) bs →
      (∀ p b, R p b → p.1 ∈ cs → f b = g p.1) → (bs.map f).sum = (cs.map g).sum := by
    intro k cs
    induction cs generalizing k with
    | nil => intro bs hb _; cases hb; rfl
    | cons c cs ih =>
      intro bs hb hf
      rw [List.zipIdx_cons] at hb
      cases hb with
      | cons h1 h2 =>
        rw [List.map_cons, List.map_cons, List.sum_cons, List.sum_cons, hf _ _ h1 (by simp),
          ih (k + 1) _ h2 fun p b hp hm => hf p b hp (by simp [hm])]
  exact key 0 cs bs h hf

/-- The physical energy is the logical energy plus the penalties. -/
theorem C20_qubo_energy_partial (hm : m.Rect) (hq : m.mtype = .qubo) (hd : ∀ c ∈ m.constraints, c.2.Distinct)
    (h : (toPhysical env clks ids ph).run m = .ok p m') {ρ : PEnv} (hρ : ρ.Extends ph) {σ : Assign} (hb : σ.IsBinary) :
    p.energy σ = m.energy ρ σ + (m.constraints.map fun c => c.2.penalty σ).sum := by
  obtain ⟨bs, m₁, g, off, m₂, h⟩ := toPhysical_ok h
  rw [h.energy hm hρ]
  congr 1
  apply forall₂_zipIdx_sum h.models
  rintro ⟨c, i⟩ b ⟨hcm, _⟩ hc
  rw [hq] at hcm
  cases hcm with
  | qubo hcm => exact toModel_penalty hcm (hd c hc) ρ hb

/-! ## C21: constraints of an Ising model -/

theorem toModel_unitScales {now : ℚ} {id : String} {c : Constraint} {cm : LModel} (h : c.toModel now id = .ok cm) :
    UnitScales cm := by
  obtain ⟨_, rfl⟩ := Constraint.toModel_ok h
  intro r hr _
  simp only [plain] at hr
  obtain ⟨it, _, rfl⟩ := List.mem_map.mp hr
  rfl

theorem toSpin_toBinary (s : Assign) : (Assign.toBinary s).toSpin = s := by
  funext l
  simp only [Assign.toSpin, Assign.toBinary]
  ring

theorem isBinary_toBinary {s : Assign} (h : s.IsSpin) : (Assign.toBinary s).IsBinary := by
  intro l
  rcases h l with h | h <;> simp [Assign.toBinary, h]

/-- The offset of a converted constraint model is a number. -/
theorem shift_isNum (c : Constraint) : (c.shift .ising).isNum = true := by
  have hnum : ∀ (rs : List Row) (F : Coef → Coef) (o : Coef), (∀ r ∈ rs, (F r.coef).isNum = true) → o.isNum = true →
      (rs.foldl (fun a h => a.add (F h.coef)) o).isNum = true := by
    intro rs F
    induction rs with
    | nil => intro o _ h; exact h
    | cons r rs ih =>
      intro o hr ho
      refine ih _ (fun x hx => hr x (by simp [hx])) ?_
      have := hr r (by simp)
      change (o.add (F r.coef)).isNum = true
      generalize F r.coef = x at this
      cases x with
      | num q => cases o with
        | num a => rfl
        | expr e => cases ho
      | expr e => cases this
  have hitem : ∀ (q : ℚ) (b : Nat), ∀ r ∈ activeBody b (c.items.map fun it => (it.row 0 "").core),
      (r.coef.mul (.num q)).isNum = true := by
    intro q b r hr
    obtain ⟨it, _, rfl⟩ := List.mem_map.mp (List.mem_filter.mp hr).1
    cases it <;> rfl
  exact
    hnum _ (·.mul (.num (1/4))) _ (hitem _ 2) (hnum _ (·.mul (.num (1/2))) _ (hitem _ 1) rfl)

/-- The energy of a constraint's model after conversion to Ising: the penalty plus twice the offset that the
conversion has added. -/
theorem isingModel_penalty {clk : Nat → ℚ} {id : String} {c : Constraint} {cm : LModel}
    (h : ConstraintModel env clk id c .ising cm) (hd : c.Distinct) (ρ : PEnv) {s : Assign} (hs : s.IsSpin) :
    cm.energy ρ s = c.penalty s.toBinary + 2 * (c.shift .ising).eval fun _ => 0 := by
  have hoff := h.contents.2
  cases h with
  | @ising cm₀ _ h hc =>
    have hg := (Constraint.toModel_ok h)
    have hu : cm₀.names.Nodup := by rw [hg.2]; exact plain_names _ _ hg.1
    have hq : cm₀.mtype = .qubo := by rw [hg.2]; rfl
    have h0 : cm₀.offset = .num 0 := by rw [hg.2]; rfl
    have := C35_toIsing_shift_partial hu hq (toModel_unitScales h) hc ρ s.toBinary
    rw [toSpin_toBinary, toModel_penalty h hd ρ (isBinary_toBinary hs), h0, hoff] at this
    rw [this, Coef.eval_num, sub_zero]
    congr 2
    obtain ⟨q, hq⟩ := Coef.isNum_iff.mp (shift_isNum c)
    rw [hq]
    rfl

/-- For Ising models the physical energy is the logical energy plus the penalties at `x = (s + 1) / 2` plus a
constant that depends on the constraints only. (The constant ought to be zero: see `C21_exact_refuted`.) -/
theorem C21_ising_energy_partial : ∃ K : Constraint → ℚ, ∀ {m m' : LModel} {env : Env} {clks : Nat → Nat → ℚ}
    {ids : Nat → String} {ph : List (String × ℚ)} {p : Physical}, m.Rect → m.mtype = .ising →
    (∀ c ∈ m.constraints, c.2.Distinct) → (toPhysical env clks ids ph).run m = .ok p m' → ∀ {ρ : PEnv}, ρ.Extends ph →
    ∀ {s : Assign}, s.IsSpin →
    p.energy s = m.energy ρ s + (m.constraints.map fun c => c.2.penalty s.toBinary + K c.2).sum := by
  refine ⟨fun c => 2 * (c.shift .ising).eval fun _ => 0, ?_⟩
  intro m m' env clks ids ph p hm hq hd h ρ hρ s hs
  obtain ⟨bs, m₁, g, off, m₂, h⟩ := toPhysical_ok h
  rw [h.energy hm hρ]
  congr 1
  apply forall₂_zipIdx_sum h.models
  rintro ⟨c, i⟩ b ⟨hcm, _⟩ hc
  rw [hq] at hcm
  exact isingModel_penalty hcm (hd c hc) ρ hs

/-- Energy differences between spin assignments are those of the logical energy plus the penalties. -/
theorem C21_ising_gap_partial (hm : m.Rect) (hq : m.mtype = .ising) (hd : ∀ c ∈ m.constraints, c.2.Distinct)
    (h : (toPhysical env clks ids ph).run m = .ok p m') {ρ : PEnv} (hρ : ρ.Extends ph) {s t : Assign} (hs : s.IsSpin)
    (ht : t.IsSpin) :
    p.energy s - p.energy t =
      (m.energy ρ s + (m.constraints.map fun c => c.2.penalty s.toBinary).sum) -
      (m.energy ρ t + (m.constraints.map fun c => c.2.penalty t.toBinary).sum) := by
  obtain ⟨K, hK⟩ := C21_ising_energy_partial
  rw [hK hm hq hd h hρ hs, hK hm hq hd h hρ ht, sum_map_add', sum_map_add']
  ring

/-- An Ising model with a one-hot constraint and one interaction. -/
def isingOneHot : LModel := Ex.after (LModel.new .ising "101") do
  let _ ← createVars "x" [2]
  addInteraction 1 (.var Ex.x0) (.str "") (.num 3) (.num 1) .none .none
  addConstraint (.nHot "c" 1 [Ex.b0, Ex.b1] 1)

/-- A QUBO model with a one-hot constraint and one interaction. -/
def quboOneHot : LModel := Ex.after (LModel.new .qubo "101") do
  let _ ← createVars "x" [2]
  addInteraction 1 (.var Ex.b0) (.str "") (.num 3) (.num 1) .none .none
  addConstraint (.nHot "c" 1 [Ex.b0, Ex.b1] 1)

/-- The constant is not zero. -/
theorem C21_exact_refuted :
    ∃ p m', (toPhysical ⟨0, fun _ => "t"⟩ (fun _ _ => 0) (fun _ => "1") []).run isingOneHot = .ok p m' ∧
      isingOneHot.Rect ∧ (Constraint.nHot "c" 1 [Ex.b0, Ex.b1] 1).Distinct ∧
      p.energy (fun _ => 1) ≠ isingOneHot.energy (fun _ => 0) (fun _ => 1) +
        (isingOneHot.constraints.map fun c => c.2.penalty fun _ => 1).sum := by
  refine ⟨_, _, rfl, ⟨by decide, by decide, by decide, by decide⟩, by unfold Constraint.Distinct; decide, ?_⟩
  decide +kernel

example : quboOneHot.Rect ∧ quboOneHot.mtype = .qubo ∧
    ((toPhysical ⟨0, fun _ => "t"⟩ (fun _ _ => 0) (fun _ => "1") []).run quboOneHot).isOk = true :=
  ⟨⟨by decide, by decide, by decide, by decide⟩, by decide, by decide +kernel⟩

end Sawatabi.Props
