import Verif.Props.Equality
import Verif.Props.PhysicalTerms
import Verif.Props.PhysicalSuccess

/-!
# Physical models of equal models with constraints (C87)
-/

namespace Sawatabi.Props

/-! ## Dictionaries -/

theorem perm_dpop {κ ν : Type} [DecidableEq κ] {e : List (κ × ν)} {k : κ} {w : ν} (h : dget e k = some w) :
    e.Perm ((k, w) :: dpop e k) := by
  induction e with
  | nil => cases h
  | cons q e ih =>
    obtain ⟨k', v⟩ := q
    rw [dget] at h
    rw [dpop]
    by_cases hk : k' = k
    · rw [if_pos hk] at h ⊢
      cases h
      rw [hk]
    · rw [if_neg hk] at h ⊢
      exact ((ih h).cons _).trans (List.Perm.swap _ _ _)

/-- Dictionaries with related values: the entries can be matched one by one. -/
theorem dictAlike_matched {κ ν : Type} [DecidableEq κ] {R : ν → ν → Prop} {d e : List (κ × ν)} (hd : (dkeys d).Nodup)
    (he : (dkeys e).Nodup) (h : DictAlike R d e) :
    ∃ e', List.Forall₂ (fun a b => a.1 = b.1 ∧ R a.2 b.2) d e' ∧ e.Perm e' := by
  induction d generalizing e with
  | nil =>
    refine ⟨[], .nil, ?_⟩
    cases e with
    | nil => exact .nil
    | cons q e =>
      have := h q.1
      simp [dget] at this
  | cons q d ih =>
    obtain ⟨k, v⟩ := q
    have hk := h k
    have hv : dget ((k, v) :: d) k = some v := by simp [dget]
    rw [hv] at hk
    cases hw : dget e k with
    | none => rw [hw] at hk; exact hk.elim
    | some w =>
      rw [hw] at hk
      have hp := perm_dpop hw
      have hpop : dpop ((k, v) :: d) k = d := by simp [dpop]
      have hal := dictAlike_dpop h hd he k
      rw [hpop] at hal
      have he' : (dkeys (dpop e k)).Nodup := by
        have : (dkeys e).Perm (k :: dkeys (dpop e k)) := hp.map _
        exact ((this.nodup_iff.mp he)).of_cons
      obtain ⟨e', h1, h2⟩ := ih (by unfold dkeys at hd; exact (List.nodup_cons.mp hd).2) he' hal
      exact ⟨(k, w) :: e', .cons ⟨rfl, hk⟩ h1, hp.trans (h2.cons _)⟩

/-! ## Constraints that are alike -/

theorem perm_flatMap {α β : Type} {l l' : List α} {f g : α → List β} (h : l.Perm l') (hf : ∀ a ∈ l, (f a).Perm (g a)) :
    (l.flatMap f).Perm (l'.flatMap g) := by
  refine List.Perm.trans ?_ (h.flatMap_right g)
  clear h
  induction l with
  | nil => exact .nil
  | cons a l ih =>
    simp only [List.flatMap_cons]
    exact (hf a (by simp)).append (ih fun b hb => hf b (by simp [hb]))

theorem perm_pairItems {c : ℚ} {vs vs' : List PVar} (h : vs.Perm vs') (v : PVar) :
    (pairItems c vs v).Perm (pairItems c vs' v) := (h.filter _).map _

theorem perm_sunion {a a' b b' : List PVar} (ha : a.Perm a') (hb : b.Perm b') (hd : a.Nodup) :
    (sunion a b).Perm (sunion a' b') := by
  rw [List.perm_ext_iff_of_nodup (nodup_sunion hd) (nodup_sunion (ha.nodup_iff.mp hd))]
  intro v
  rw [mem_sunion, mem_sunion, ha.mem_iff, hb.mem_iff]

theorem _root_.Sawatabi.Constraint.Alike.items {c c' : Constraint} (h : c.Alike c') (hs : c.SetVars) :
    c.items.Perm c'.items := by
  cases h with
  | nHot l s n h => exact perm_flatMap h fun v _ => (perm_pairItems h v).cons _
  | zeroOrOneHot l s h => exact perm_flatMap h fun v _ => perm_pairItems h v
  | equality l s h1 h2 =>
    exact ((((perm_sunion h1 h2 hs.1).map _).append (perm_flatMap h1 fun v _ => perm_pairItems h1 v)).append
      (perm_flatMap h2 fun v _ => perm_pairItems h2 v)).append (perm_flatMap h1 fun v _ => h2.map _)

theorem _root_.Sawatabi.Constraint.Alike.label {c c' : Constraint} (h : c.Alike c') : c.label = c'.label := by
  cases h <;> rfl

theorem _root_.Sawatabi.Constraint.Alike.cores {c c' : Constraint} (h : c.Alike c') (hs : c.SetVars) (mt : MType) :
    (c.cores mt).Perm (c'.cores mt) := by
  have hi := h.items hs
  cases mt
  · exact (hi.map _).append (((hi.map _).flatMap_right _).map _)
  · exact hi.map _

theorem _root_.Sawatabi.Constraint.Alike.good {c c' : Constraint} (h : c.Alike c') (hs : c.SetVars) : c.Good ↔ c'.Good := by
  have hi := h.items hs
  unfold Constraint.Good
  rw [h.label, (hi.map _).nodup_iff]
  simp only [hi.mem_iff]

theorem eval_foldl_add (ρ : PEnv) {α : Type} (F : α → Coef) (l : List α) (o : Coef) :
    (l.foldl (fun a x => a.add (F x)) o).eval ρ = o.eval ρ + (l.map fun x => (F x).eval ρ).sum := by
  induction l generalizing o with
  | nil => simp
  | cons x l ih =>
    simp only [List.foldl_cons, ih, Coef.eval_add, List.map_cons, List.sum_cons]
    ring

theorem _root_.Sawatabi.Constraint.Alike.shift {c c' : Constraint} (h : c.Alike c') (hs : c.SetVars) (mt : MType) (ρ : PEnv) :
    (c.shift mt).eval ρ = (c'.shift mt).eval ρ := by
  have hi := h.items hs
  cases mt
  · simp only [Constraint.shift]
    rw [eval_foldl_add ρ (fun h : Row => h.coef.mul (.num (1/4))), eval_foldl_add ρ (fun h : Row => h.coef.mul (.num (1/4))),
      eval_foldl_add ρ (fun h : Row => h.coef.mul (.num (1/2))), eval_foldl_add ρ (fun h : Row => h.coef.mul (.num (1/2)))]
    have hb : ∀ b, (activeBody b (c.items.map fun it => (it.row 0 "").core)).Perm
        (activeBody b (c'.items.map fun it => (it.row 0 "").core)) := fun b => (hi.map _).filter _
    rw [((hb 1).map _).sum_eq, ((hb 2).map _).sum_eq]
  · rfl

theorem _root_.Sawatabi.Constraint.Alike.spaceFree {c c' : Constraint} (h : c.Alike c') : c.SpaceFree ↔ c'.SpaceFree := by
  cases h with
  | nHot l s n h => simp [Constraint.SpaceFree, Constraint.sets, h.mem_iff]
  | zeroOrOneHot l s h => simp [Constraint.SpaceFree, Constraint.sets, h.mem_iff]
  | equality l s h1 h2 => simp [Constraint.SpaceFree, Constraint.sets, h1.mem_iff, h2.mem_iff]

/-! ## Equal models -/

variable {m m' n n' : LModel} {env env' : Env} {clks clks' : Nat → Nat → ℚ} {ids ids' : Nat → String}
  {ph : List (String × ℚ)} {p q : Physical}

theorem conversion_constraints {bs : List LModel} {m₁ m₂ : LModel} {g : Groups} {off : ℚ}
    (h : Conversion env clks ids ph m p m' bs m₁ g off m₂) :
    bs.flatMap (fun b => b.rows.map Row.core) = m.constraints.flatMap (fun c => c.2.cores m.mtype) ∧
    bs.map (·.offset) = m.constraints.map fun c => c.2.shift m.mtype := by
  have key : ∀ (k : Nat) (cs : List (String × Constraint)) (bs : List LModel),
      List.Forall₂ (fun p b => ConstraintModel env (clks p.2) (ids p.2) p.1.2 m.mtype b ∧ Bare b) (cs.zipIdx k) bs →
      bs.flatMap (fun b => b.rows.map Row.core) = cs.flatMap (fun c => c.2.cores m.mtype) ∧
        bs.map (·.offset) = cs.map fun c => c.2.shift m.mtype := by
    intro k cs
    induction cs generalizing k with
    | nil => intro bs hb; cases hb; exact ⟨rfl, rfl⟩
    | cons c cs ih =>
      intro bs hb
      rw [List.zipIdx_cons] at hb
      cases hb with
      | cons h1 h2 =>
        obtain ⟨i1, i2⟩ := ih _ _ h2
        simp only [List.flatMap_cons, List.map_cons, h1.1.contents.1, h1.1.contents.2, i1, i2, and_self]
  exact key 0 _ _ h.models

/-- Equal models, with constraints: if both can be converted (at whatever times), the physical models have the same type,
coefficients, offset and variables, and give the same energies.
(`_partial`: the numbering of the variables can differ, see `C87_numbering_refuted`.) -/
theorem C87_physical_contents_partial (hm : Made env SetArgs m) (hn : Made env' SetArgs n) (he : m.eq n = true) (hr : m.Rect)
    (hrn : n.Rect) (hph : (ph.map (·.1)).Nodup) (h : (toPhysical env clks ids ph).run m = .ok p m')
    (h' : (toPhysical env' clks' ids' ph).run n = .ok q n') :
    p.mtype = q.mtype ∧ p.linear.Perm q.linear ∧ p.quad.Perm q.quad ∧ p.offset = q.offset ∧
      (∀ l, l ∈ p.varsSet ↔ l ∈ q.varsSet) ∧ ∀ σ, p.energy σ = q.energy σ := by
  have hs := same_of_eq hm hn he
  have hon := made_ordered hn
  have ho := made_ordered hm
  have hvs := varsSet_iff h
  have hvs' := varsSet_iff h'
  have hρ := envOf_extends hph
  obtain ⟨bs, m₁, g, off, m₂, h⟩ := toPhysical_ok h
  obtain ⟨bs', n₁, g', off', n₂, h'⟩ := toPhysical_ok h'
  obtain ⟨a1, a2, a3, a4, a5⟩ := h.terms hr ho hρ
  obtain ⟨b1, b2, b3, b4, b5⟩ := h'.terms hrn hon hρ
  obtain ⟨c1, c2⟩ := conversion_constraints h
  obtain ⟨d1, d2⟩ := conversion_constraints h'
  obtain ⟨cs, hcs, hperm⟩ := dictAlike_matched hs.left.cons hs.right.cons hs.alike.cons
  have hboth : (m.constraints.flatMap fun c => c.2.cores m.mtype).Perm (cs.flatMap fun c => c.2.cores n.mtype) ∧
      (m.constraints.map fun c => (c.2.shift m.mtype).eval (envOf ph)) =
        cs.map fun c => (c.2.shift n.mtype).eval (envOf ph) := by
    rw [hs.alike.mtype]
    have hset := hs.left.sets
    generalize m.constraints = ms at hcs hset
    clear hperm
    induction hcs with
    | nil => exact ⟨.nil, rfl⟩
    | cons h1 _ ih =>
      obtain ⟨i1, i2⟩ := ih fun x hx => hset x (by simp [hx])
      have hx := hset _ (List.mem_cons_self)
      simp only [List.flatMap_cons, List.map_cons]
      exact ⟨(h1.2.cores hx _).append i1, by rw [i2, h1.2.shift hx]⟩
  have hp₁ : (m₁.rows.map Row.core).Perm (n₁.rows.map Row.core) := by
    rw [h.absorbed.cores, h'.absorbed.cores, c1, d1, hs.alike.rows]
    exact (hboth.1.trans (hperm.symm.flatMap_right _)).append_left _
  have hlin : ∀ l, linTotal (envOf ph) m₁.rows l = linTotal (envOf ph) n₁.rows l := by
    intro l
    rw [linTotal_cores (y := m₁.rows.map Row.core) (by rw [List.map_map]; rfl), linTotal_perm hp₁,
      ← linTotal_cores (x := n₁.rows) (by rw [List.map_map]; rfl)]
  have hquad : ∀ a b, pairTotal (envOf ph) m₁.rows a b = pairTotal (envOf ph) n₁.rows a b := by
    intro a b
    rw [pairTotal_cores (y := m₁.rows.map Row.core) (by rw [List.map_map]; rfl), pairTotal_perm hp₁,
      ← pairTotal_cores (x := n₁.rows) (by rw [List.map_map]; rfl)]
  have hL : p.linear.Perm q.linear := by
    rw [List.perm_ext_iff_of_nodup a1.of_map b1.of_map]
    rintro ⟨l, x⟩
    rw [a4, b4, hlin]
  have hQ : p.quad.Perm q.quad := by
    rw [List.perm_ext_iff_of_nodup a2.of_map b2.of_map]
    rintro ⟨⟨a, b⟩, x⟩
    constructor
    · intro hx
      have hab := a3 (a, b) (List.mem_map_of_mem (f := (·.1)) hx)
      rw [a5 a b x hab] at hx
      rw [b5 a b x hab, ← hquad]
      exact hx
    · intro hx
      have hab := b3 (a, b) (List.mem_map_of_mem (f := (·.1)) hx)
      rw [b5 a b x hab] at hx
      rw [a5 a b x hab, hquad]
      exact hx
  have hoff : off = off' := by
    rw [← Coef.resolve_eval h.offset hρ, ← Coef.resolve_eval h'.offset hρ, h.absorbed.offset, h'.absorbed.offset,
      eval_foldl_add _ (fun b : LModel => b.offset), eval_foldl_add _ (fun b : LModel => b.offset), hs.alike.offset]
    congr 1
    have e1 : (bs.map fun b => b.offset.eval (envOf ph)) = (bs.map (·.offset)).map fun o => o.eval (envOf ph) := by
      rw [List.map_map]; rfl
    have e2 : (bs'.map fun b => b.offset.eval (envOf ph)) = (bs'.map (·.offset)).map fun o => o.eval (envOf ph) := by
      rw [List.map_map]; rfl
    rw [e1, e2, c2, d2, List.map_map, List.map_map]
    refine Eq.trans (congrArg List.sum hboth.2) ?_
    exact (hperm.symm.map _).sum_eq
  have hO : p.offset = q.offset := by
    rw [h.result, h'.result]
    exact hoff
  refine ⟨?_, hL, hQ, hO, fun l => ?_, fun σ => ?_⟩
  · rw [h.result, h'.result]
    simp only [buildPhysical]
    rw [h.absorbed.same, h'.absorbed.same]
    exact hs.alike.mtype
  · rw [hvs, hvs', dkeys, dkeys, dkeys, dkeys]
    rw [(hL.map _).mem_iff]
    simp only [(hQ.map _).mem_iff]
  · simp only [Physical.energy, hO]
    rw [(hL.map _).sum_eq, (hQ.map _).sum_eq]

theorem same_cleaned (h : Same m n) : Same m.cleaned n.cleaned where
  alike := by
    refine ⟨h.alike.mtype, h.alike.vars, ?_, ?_, h.alike.attrs, ?_, h.alike.cons, h.alike.deleted, h.alike.fixed, h.alike.offset⟩
    · simp only [LModel.cleaned, h.alike.rows]
    · simp only [LModel.cleaned, h.alike.rows]
      exact h.alike.cols.map _
    · simp only [LModel.cleaned, h.alike.rows]
  left := ⟨h.left.vars, by simpa [LModel.cleaned, dkeys, Function.comp_def] using h.left.cols, h.left.cons, h.left.sets, h.left.deleted, h.left.fixed⟩
  right := ⟨h.right.vars, by simpa [LModel.cleaned, dkeys, Function.comp_def] using h.right.cols, h.right.cons, h.right.sets, h.right.deleted, h.right.fixed⟩

/-- Equal models, with constraints: one can be converted exactly if the other can, whenever the calls happen, and the models
are equal afterwards. (`_partial`: the names of the interactions differ from each other and, if removed, from those of
constraints, and labels in the constraints of Ising models have no spaces.) -/
theorem C87_physical_calls_partial (hm : Made env SetArgs m) (hn : Made env' SetArgs n) (he : m.eq n = true) (hr : m.Rect)
    (hrn : n.Rect) (hu : m.names.Nodup) (hc : m.NoClash) (hs : m.mtype = .ising → ∀ c ∈ m.constraints, c.2.SpaceFree)
    (h : (toPhysical env clks ids ph).run m = .ok p m') :
    ∃ q n', (toPhysical env' clks' ids' ph).run n = .ok q n' ∧ m'.eq n' = true := by
  have hsame := same_of_eq hm hn he
  have hgm := good_of_ok h
  have hfm := filled_of_ok hr h
  have hmatch : ∀ c' ∈ n.constraints, ∃ c ∈ m.constraints, c.2.Alike c'.2 := by
    intro c' hc'
    obtain ⟨cs, hcs, hperm⟩ := dictAlike_matched hsame.left.cons hsame.right.cons hsame.alike.cons
    obtain ⟨i, hi, hget⟩ := List.getElem_of_mem (hperm.mem_iff.mp hc')
    have hi' : i < m.constraints.length := by rw [hcs.length_eq]; exact hi
    have := hcs.get (i := i) hi' hi
    simp only [List.get_eq_getElem, hget] at this
    exact ⟨_, List.getElem_mem hi', this.2⟩
  have hnames : n.names = m.names := by unfold LModel.names; rw [hsame.alike.rows]
  obtain ⟨q, hq⟩ := succeeds_of_good (env := env') (clks := clks') (ids := ids') (ph := ph) hrn
    (by rw [hnames]; exact hu) (by unfold LModel.NoClash; rw [← hsame.alike.rows]; exact hc)
    (fun c' hc' => by
      obtain ⟨c, hcm, ha⟩ := hmatch c' hc'
      exact (ha.good (hsame.left.sets c hcm)).mp (hgm c hcm))
    (fun hi c' hc' => by
      obtain ⟨c, hcm, ha⟩ := hmatch c' hc'
      exact ha.spaceFree.mp (hs (by rw [hsame.alike.mtype]; exact hi) c hcm))
    (by unfold LModel.Filled; rw [← hsame.alike.rows, ← hsame.alike.offset]; exact hfm)
  refine ⟨q, _, hq, ?_⟩
  rw [C22_only_prunes_partial hr hu hc h]
  exact eq_of_same (same_cleaned hsame)

/-! ## Example -/

/-- Two constraints added in different order, over variables in different order. -/
def consOps (flip : Bool) : List Op :=
  [.variables "x" [3], .add 1 (.var Ex.b0) (.str "") (.num 1) (.num 1) .none .none] ++
  (if flip then [.addConstraint (.nHot "B" 2 [Ex.b2] 1), .addConstraint (.nHot "A" 1 [Ex.b1, Ex.b0] 1)]
  else [.addConstraint (.nHot "A" 1 [Ex.b0, Ex.b1] 1), .addConstraint (.nHot "B" 2 [Ex.b2] 1)])

/-- The model after these calls. -/
def consModel (flip : Bool) (id : String) : LModel := afterOps ⟨0, fun _ => ""⟩ (LModel.new .qubo id) (consOps flip)

theorem made_consModel (flip : Bool) (id : String) : Made ⟨0, fun _ => ""⟩ SetArgs (consModel flip id) := by
  refine made_ops _ (.new _ _) (fun op h clk o e => ?_) (fun m op h => ?_)
  · subst e; cases flip <;> simp [consOps] at h
  · cases flip <;> simp [consOps] at h <;> rcases h with rfl | rfl | rfl | rfl <;>
      simp [SetArgs, Constraint.SetVars, Ex.b0, Ex.b1, Ex.b2]

theorem consModel_rect (flip : Bool) (id : String) : (consModel flip id).Rect := by
  cases flip
  all_goals exact ⟨by rfl, by rfl, by exact List.nodup_nil, by intro p h; cases h⟩

/-- The models are equal but not the same, and both can be converted. -/
example : ∃ m n p q m' n', Made ⟨0, fun _ => ""⟩ SetArgs m ∧ Made ⟨0, fun _ => ""⟩ SetArgs n ∧ m.eq n = true ∧
    m.constraints ≠ n.constraints ∧ m.Rect ∧ n.Rect ∧ m.names.Nodup ∧ m.NoClash ∧
    (toPhysical ⟨0, fun _ => ""⟩ (fun _ _ => 1) (fun _ => "3") []).run m = .ok p m' ∧
    (toPhysical ⟨0, fun _ => ""⟩ (fun _ _ => 2) (fun _ => "4") []).run n = .ok q n' ∧ p.linear ≠ q.linear := by
  obtain ⟨p, m', hp, h⟩ := Ex.exists_of_okAnd (r := (toPhysical ⟨0, fun _ => ""⟩ (fun _ _ => 1) (fun _ => "3") []).run
      (consModel false "1"))
    (p := fun p _ => Ex.okAnd ((toPhysical ⟨0, fun _ => ""⟩ (fun _ _ => 2) (fun _ => "4") []).run (consModel true "2"))
      fun q _ => p.linear != q.linear)
    (by decide +kernel)
  obtain ⟨q, n', hq, h⟩ := Ex.exists_of_okAnd h
  refine ⟨_, _, p, q, m', n', made_consModel false "1", made_consModel true "2", by decide +kernel, by decide +kernel,
    consModel_rect _ _, consModel_rect _ _, by decide +kernel, ?_, hp, hq, by simpa using h⟩
  intro r hr
  revert r
  unfold consModel
  decide +kernel

end Sawatabi.Props
