import Verif.Lemmas.Proper
import Verif.Spec.Acceptance
import Verif.Spec.Registry
import Verif.Props.SolverMade

/-!
# C87: equal models behave alike
-/

namespace Sawatabi.Props

open Sawatabi

variable {env env' env'' : Env} {m n o : LModel}

/-! ## What `==` decides -/

/-- Two models made by public calls are `==` exactly if they are the same up to the order of dictionaries and sets. -/
theorem C87_eq_iff (hm : Made env SetArgs m) (hn : Made env' SetArgs n) : m.eq n = true ↔ Alike m n :=
  LModel.eq_iff (made_proper hm) (made_proper hn)

/-- `==` is an equivalence relation on models made by public calls. -/
theorem C87_equivalence (hm : Made env SetArgs m) (hn : Made env' SetArgs n) (ho : Made env'' SetArgs o) :
    m.eq m = true ∧ (m.eq n = true → n.eq m = true) ∧ (m.eq n = true → n.eq o = true → m.eq o = true) := by
  refine ⟨(C87_eq_iff hm hm).mpr (.refl m), fun h => ?_, fun h h' => ?_⟩
  · exact (C87_eq_iff hn hm).mpr ((C87_eq_iff hm hn).mp h).symm
  · exact (C87_eq_iff hm ho).mpr (((C87_eq_iff hm hn).mp h).trans ((C87_eq_iff hn ho).mp h'))

/-- The constructors make constraints whose variables are sets. -/
theorem C87_constraint_sets {c : Constraint} {vars vars' : Option PyVars} {k : Int} {l : String} {s : ℚ}
    (h : mkNHot vars k l s = .ok c ∨ mkZeroOrOneHot vars l s = .ok c ∨ mkEquality vars vars' l s = .ok c) : c.SetVars := by
  have hset : ∀ {a : PyVars} {vs : List PVar}, checkVarsToSet a = .ok vs → vs.Nodup := by
    intro a vs h
    have hf : ∀ l : List PVar, (toSet l).Nodup := fun l => nodup_foldl_sadd List.nodup_nil
    cases a with
    | array a => cases h; exact hf _
    | var v => cases h; exact List.nodup_singleton _
    | list l =>
      simp only [checkVarsToSet] at h
      cases hc : checkVarList l with
      | error e => rw [hc] at h; cases h
      | ok vs => rw [hc] at h; cases h; exact hf _
    | set l =>
      simp only [checkVarsToSet] at h
      cases hc : checkVarList l with
      | error e => rw [hc] at h; cases h
      | ok vs => rw [hc] at h; cases h; exact hf _
    | other => cases h
  have hb : ∀ {α β : Type} {x : Except Err α} {f : α → Except Err β} {b : β}, (x >>= f) = .ok b → ∃ a, x = .ok a ∧ f a = .ok b := by
    intro α β x f b h
    cases x with
    | error e => cases h
    | ok a => exact ⟨a, rfl, h⟩
  have hopt : ∀ {a : Option PyVars} {f : List PVar → Except Err Constraint} {c : Constraint}, (match a with
      | none => (do let vs ← pure []; f vs)
      | some a => (do let vs ← checkVarsToSet a; f vs)) = .ok c → ∃ vs : List PVar, vs.Nodup ∧ f vs = .ok c := by
    intro a f c h
    cases a with
    | none => exact ⟨[], List.nodup_nil, h⟩
    | some a =>
      obtain ⟨vs, h1, h2⟩ := hb h
      exact ⟨vs, hset h1, h2⟩
  rcases h with h | h | h
  · unfold mkNHot at h
    obtain ⟨_, _, h⟩ := hb h
    obtain ⟨vs, hvs, h⟩ := hopt h
    split at h
    · cases h
    · cases h; exact hvs
  · unfold mkZeroOrOneHot at h
    obtain ⟨_, _, h⟩ := hb h
    obtain ⟨vs, hvs, h⟩ := hopt h
    cases h
    exact hvs
  · unfold mkEquality at h
    obtain ⟨_, _, h⟩ := hb h
    obtain ⟨v1, h1, h⟩ := hopt h
    obtain ⟨v2, h2, h⟩ := hopt h
    cases h
    exact ⟨h1, h2⟩

/-! ## Calls on equal models -/

/-- Calls that do not go through a dictionary or set entry by entry, and do not use the identity of the object. -/
def _root_.Sawatabi.Op.Local : Op → Prop
  | .delete _ | .toIsing _ | .toQubo _ | .merge _ _ | .toPhysical _ _ _ => False
  | _ => True

/-- Calls that do, but neither merge nor convert to a physical model. -/
def _root_.Sawatabi.Op.Global : Op → Prop
  | .delete _ | .toIsing _ | .toQubo _ => True
  | _ => False

theorem local_con (op : Op) (hl : op.Local) (hs : SetArgs m op) : Py.Con Same (op.call env) := by
  have hmap : ∀ {α : Type} {x : Py LModel α}, Py.Con Same x → Py.Con Same (do let _ ← x : Py LModel Unit) :=
    fun hx => .bind hx fun _ => .pure _
  cases op with
  | «variables» n sh => exact hmap (createVars_con n sh)
  | variablesArray a => exact hmap (variablesArray_con a)
  | append n sh => exact hmap (appendVars_con n sh)
  | add now t n c s a ts => exact addInteraction_con _ _ _ _ _ _ _
  | update now t n c s a ts => exact updateInteraction_con _ _ _ _ _ _ _ _
  | remove t n => exact removeInteraction_con _ _
  | select v => exact hmap (selectByVariable_con v)
  | delete v => exact hl.elim
  | fix clk v q => exact fixVariable_con clk v q
  | addConstraint c => exact addConstraint_con c hs
  | removeConstraint l => exact removeConstraint_con l
  | setOffset c => exact setOffset_con c
  | fromPyqubo now pm => exact withSnd_con pm (fromPyqubo_con now)
  | toIsing clk => exact hl.elim
  | toQubo clk => exact hl.elim
  | merge clk o => exact hl.elim
  | toPhysical a b c => exact hl.elim

theorem same_of_eq (hm : Made env SetArgs m) (hn : Made env' SetArgs n) (h : m.eq n = true) : Same m n :=
  ⟨(C87_eq_iff hm hn).mp h, made_proper hm, made_proper hn⟩

theorem eq_of_same (h : Same m n) : m.eq n = true := (LModel.eq_iff h.left h.right).mpr h.alike

/-- The same call on equal models returns on both or raises the same exception on both, and leaves equal models. -/
theorem C87_calls (hm : Made env SetArgs m) (hn : Made env' SetArgs n) (h : m.eq n = true) {op : Op} (hl : op.Local)
    (hs : SetArgs m op) : ((op.call env).run m).raised = ((op.call env).run n).raised ∧
      (op.step env m).eq (op.step env n) = true := by
  have := local_con (env := env) op hl hs m n (same_of_eq hm hn h)
  unfold Op.step
  cases h1 : (op.call env).run m <;> cases h2 : (op.call env).run n <;> rw [h1, h2] at this
  · exact ⟨rfl, eq_of_same this.2⟩
  · exact this.elim
  · exact this.elim
  · exact ⟨by rw [this.1]; rfl, eq_of_same this.2⟩

/-- The same history of such calls on equal models leaves equal models, also if calls in between raise. -/
theorem C87_histories (hm : Made env SetArgs m) (hn : Made env' SetArgs n) (h : m.eq n = true) {ops : List Op}
    (hl : ∀ op ∈ ops, op.Local) (hs : ∀ c, .addConstraint c ∈ ops → c.SetVars) :
    (afterOps env m ops).eq (afterOps env n ops) = true := by
  have key : ∀ (ops : List Op) (m n : LModel), Same m n → (∀ op ∈ ops, op.Local) → (∀ c, .addConstraint c ∈ ops → c.SetVars) →
      Same (afterOps env m ops) (afterOps env n ops) := by
    intro ops
    induction ops with
    | nil => exact fun m n h _ _ => h
    | cons op ops ih =>
      intro m n h hl hs
      refine ih _ _ ?_ (fun op h => hl op (List.mem_cons_of_mem _ h)) fun c h => hs c (List.mem_cons_of_mem _ h)
      have hsa : SetArgs m op := by
        cases op with
        | addConstraint c => exact hs c List.mem_cons_self
        | _ => trivial
      have := local_con (env := env) op (hl op List.mem_cons_self) hsa m n h
      unfold Op.step
      cases h1 : (op.call env).run m <;> cases h2 : (op.call env).run n <;> rw [h1, h2] at this
      · exact this.2
      · exact this.elim
      · exact this.elim
      · exact this.2
  exact eq_of_same (key ops m n (same_of_eq hm hn h) hl hs)

/-- Deleting a variable and converting the model type: on equal models both calls return, and leave equal models, or both
raise. (`_partial`: the exceptions and the models after them can differ, see `C87_raising_refuted`.) -/
theorem C87_global_partial (hm : Made env SetArgs m) (hn : Made env' SetArgs n) (h : m.eq n = true) {op : Op}
    (hg : op.Global) : ((op.call env).run m).isOk = ((op.call env).run n).isOk ∧
      (((op.call env).run m).isOk = true → (op.step env m).eq (op.step env n) = true) := by
  have key : WeakRes Same ((op.call env).run m) ((op.call env).run n) := by
    have hs := same_of_eq hm hn h
    cases op with
    | delete v => exact deleteVariable_weak v m n hs
    | toIsing clk => exact toIsing_weak env clk m n hs
    | toQubo clk => exact toQubo_weak env clk m n hs
    | _ => exact hg.elim
  unfold Op.step
  cases h1 : (op.call env).run m <;> cases h2 : (op.call env).run n <;> rw [h1, h2] at key
  · exact ⟨rfl, fun _ => eq_of_same key.2⟩
  · exact key.elim
  · exact key.elim
  · exact ⟨rfl, fun h => (by cases h)⟩

/-- Getters give the same answers on equal models. -/
theorem C87_getters (hm : Made env SetArgs m) (hn : Made env' SetArgs n) (h : m.eq n = true) :
    m.allSize = n.allSize ∧ m.size = n.size ∧ (∀ t k, m.getAttributes t k = n.getAttributes t k) ∧
      ∀ t k a, m.getAttribute t k a = n.getAttribute t k a := by
  have hs := same_of_eq hm hn h
  have hall : m.allSize = n.allSize := by
    unfold LModel.allSize
    exact hs.alike.vars.foldl_eq' (fun x _ y _ z => by omega) 0
  have hga : ∀ t k, m.getAttributes t k = n.getAttributes t k := by
    intro t k
    unfold LModel.getAttributes
    rw [hs.internalName, hs.indexOf, hs.alike.attrs]
    have : attrFold m = attrFold n := by
      funext i r a
      unfold attrFold
      rw [hs.getCol]
    rw [this]
  refine ⟨hall, ?_, hga, fun t k a => ?_⟩
  · unfold LModel.size
    rw [hall, hs.alike.deleted.length_eq, hs.alike.fixed.length_eq]
  · unfold LModel.getAttribute
    rw [hga]

/-- Converting equal models without constraints to physical models: both calls return or both raise. If they return, the
physical models have the same type, coefficients, offset and variables, and the logical models are equal afterwards.
(`_partial`: the numbering of the variables can differ, see `C87_numbering_refuted`; constraints are left out.) -/
theorem C87_physical_partial (hm : Made env SetArgs m) (hn : Made env' SetArgs n) (h : m.eq n = true)
    (hc : m.constraints = []) (clks : Nat → Nat → ℚ) (ids : Nat → String) (ph : List (String × ℚ)) :
    ((toPhysical env clks ids ph).run m).isOk = ((toPhysical env clks ids ph).run n).isOk ∧
      ∀ p m', (toPhysical env clks ids ph).run m = .ok p m' → ∃ q n', (toPhysical env clks ids ph).run n = .ok q n' ∧
        p.mtype = q.mtype ∧ p.linear = q.linear ∧ p.quad = q.quad ∧ p.offset = q.offset ∧ p.varsSet = q.varsSet ∧
        m'.eq n' = true := by
  have := toPhysical_weak (same_of_eq hm hn h) env clks ids ph hc
  cases h1 : (toPhysical env clks ids ph).run m <;> cases h2 : (toPhysical env clks ids ph).run n <;> rw [h1, h2] at this
  · refine ⟨rfl, fun p m' e => ?_⟩
    cases e
    obtain ⟨h3, h4⟩ := this
    simp only [Physical.content, Prod.mk.injEq] at h3
    exact ⟨_, _, rfl, h3.1, h3.2.1, h3.2.2.1, h3.2.2.2.1, h3.2.2.2.2, eq_of_same h4⟩
  · exact this.elim
  · exact this.elim
  · exact ⟨rfl, fun p m' e => (by cases e)⟩

/-! ## Physical models -/

theorem numbering_keys (m : LModel) (vs : List String) :
    (dkeys (numbering m vs).l2i).Nodup ∧ (dkeys (numbering m vs).i2l).Nodup := by
  have key : ∀ (ls : List String) (n : Numbering), (dkeys n.l2i).Nodup → (dkeys n.i2l).Nodup →
      (dkeys (ls.foldl (numberStep m.deleted vs) n).l2i).Nodup ∧ (dkeys (ls.foldl (numberStep m.deleted vs) n).i2l).Nodup := by
    intro ls
    induction ls with
    | nil => exact fun n h h' => ⟨h, h'⟩
    | cons l ls ih =>
      intro n h h'
      apply ih
      · unfold numberStep
        split
        · exact nodup_dset _ h
        · exact h
      · unfold numberStep
        split
        · exact nodup_dset _ h'
        · exact h'
  exact key _ _ List.nodup_nil List.nodup_nil

theorem fromCalls_numbering {p : Physical} (hp : p.FromCalls) : (dkeys p.labelToIndex).Nodup ∧ (dkeys p.indexToLabel).Nodup := by
  obtain ⟨env, clks, ids, ph, m, m', _, _, h⟩ := hp
  rw [toPhysical_run] at h
  split at h
  · cases h
  split at h
  · cases h
  split at h
  · cases h
  split at h
  · cases h
  cases h
  exact numbering_keys _ _

/-- Two physical models made by `to_physical` are `==` exactly if they are the same up to the order of dictionaries. -/
theorem C87_physical_eq_iff {p q : Physical} (hp : p.FromCalls) (hq : q.FromCalls) : p.eq q = true ↔ p.Alike q := by
  have hkp := fromCalls_keyed hp
  have hkq := fromCalls_keyed hq
  have hnp := fromCalls_numbering hp
  have hnq := fromCalls_numbering hq
  unfold Physical.eq
  simp only [Bool.and_eq_true, beq_iff_eq, dictEq_perm hkp.linear hkq.linear, dictEq_perm hkp.quad hkq.quad,
    dictEq_perm hnp.1 hnq.1, dictEq_perm hnp.2 hnq.2]
  constructor
  · rintro ⟨⟨⟨⟨h1, h2, h3⟩, h4⟩, h5⟩, h6⟩
    exact ⟨h1, h2, h3, h4, h5, h6⟩
  · rintro ⟨h1, h2, h3, h4, h5, h6⟩
    exact ⟨⟨⟨⟨h1, h2, h3⟩, h4⟩, h5⟩, h6⟩

/-- Equal physical models have the same energies, the same variables, and the same numbers of the variables. -/
theorem C87_physical_eq {p q : Physical} (hp : p.FromCalls) (hq : q.FromCalls) (h : p.eq q = true) :
    (∀ σ, p.energy σ = q.energy σ) ∧ (∀ sign σ, (p.toBqm sign).energy σ = (q.toBqm sign).energy σ) ∧
      (∀ v, v ∈ p.varsSet ↔ v ∈ q.varsSet) ∧ (∀ v, p.index v = q.index v) ∧
      ∀ i, dget p.indexToLabel i = dget q.indexToLabel i := by
  have ha := (C87_physical_eq_iff hp hq).mp h
  have hn := fromCalls_numbering hp
  refine ⟨fun σ => ?_, fun sign σ => ?_, fun v => ?_, fun v => ?_, fun i => dget_perm ha.i2l hn.2 i⟩
  · unfold Physical.energy
    rw [ha.offset, (ha.linear.map _).sum_eq, (ha.quad.map _).sum_eq]
  · unfold Bqm.energy Physical.toBqm
    simp only
    rw [ha.offset, ((ha.linear.map _).map _).sum_eq, ((ha.quad.map _).map _).sum_eq]
  · rw [fromCalls_vars hp, fromCalls_vars hq]
    unfold Physical.Uses
    have hk : ∀ {κ ν : Type} {d e : List (κ × ν)}, d.Perm e → ∀ k, k ∈ dkeys d ↔ k ∈ dkeys e :=
      fun h k => (h.map Prod.fst).mem_iff
    constructor
    · rintro (h | ⟨k, hk', h⟩)
      · exact .inl ((hk ha.linear v).mp h)
      · exact .inr ⟨k, (hk ha.quad k).mp hk', h⟩
    · rintro (h | ⟨k, hk', h⟩)
      · exact .inl ((hk ha.linear v).mpr h)
      · exact .inr ⟨k, (hk ha.quad k).mpr hk', h⟩
  · unfold Physical.index
    rw [dget_perm ha.l2i hn.1]

/-! ## What equality does not give -/

/-- Two models with the arrays `x` and `y` created in different order. -/
def orderOps (flip : Bool) : List Op :=
  (if flip then [.variables "y" [1], .variables "x" [1]] else [.variables "x" [1], .variables "y" [1]]) ++
  [.add 1 (.var ⟨.spin, "x[0]"⟩) (.str "") (.num 1) (.num 1) .none .none,
   .add 1 (.var ⟨.spin, "y[0]"⟩) (.str "") (.num 2) (.num 1) .none .none]

/-- Equal models can give physical models that are not equal: the variables are numbered in the order in which their arrays
were created, which `==` ignores. -/
theorem C87_numbering_refuted :
    let m := afterOps ⟨0, fun _ => ""⟩ (LModel.new .ising "1") (orderOps false)
    let n := afterOps ⟨0, fun _ => ""⟩ (LModel.new .ising "2") (orderOps true)
    m.eq n = true ∧
    Ex.okAnd ((toPhysical ⟨0, fun _ => ""⟩ (fun _ _ => 0) (fun _ => "") []).run m) (fun p _ =>
      Ex.okAnd ((toPhysical ⟨0, fun _ => ""⟩ (fun _ _ => 0) (fun _ => "") []).run n) fun q _ =>
        !p.eq q && p.labelToIndex == [("x[0]", 0), ("y[0]", 1)] && q.labelToIndex == [("y[0]", 0), ("x[0]", 1)]) = true := by
  decide +kernel

/-- Merging the same model into equal models can give models that are not equal: interactions with a common name are
renamed after the object identity. -/
theorem C87_merge_refuted :
    let m := afterOps ⟨0, fun _ => ""⟩ (LModel.new .ising "1") (orderOps false)
    let n := afterOps ⟨0, fun _ => ""⟩ (LModel.new .ising "2") (orderOps false)
    let o := afterOps ⟨0, fun _ => ""⟩ (LModel.new .ising "3") (orderOps false)
    m.eq n = true ∧
      (Op.step ⟨0, fun _ => ""⟩ m (.merge (fun _ => 0) o)).eq (Op.step ⟨0, fun _ => ""⟩ n (.merge (fun _ => 0) o)) = false := by
  decide +kernel

/-- Two models with the constraints `A` (which knows `x[0]`) and `B` (which does not) added in different order. -/
def raisingOps (flip : Bool) : List Op :=
  let a := .addConstraint (.nHot "A" 1 [Ex.b0, Ex.b1] 1)
  let b := .addConstraint (.nHot "B" 1 [Ex.b1] 1)
  if flip then [b, a] else [a, b]

/-- A raising `delete_variable` can turn equal models into models that are not equal. -/
theorem C87_raising_refuted :
    let m := afterOps ⟨0, fun _ => ""⟩ (LModel.new .qubo "1") (raisingOps false)
    let n := afterOps ⟨0, fun _ => ""⟩ (LModel.new .qubo "2") (raisingOps true)
    m.eq n = true ∧ ((deleteVariable Ex.b0).run m).isOk = false ∧
      (Op.step ⟨0, fun _ => ""⟩ m (.delete Ex.b0)).eq (Op.step ⟨0, fun _ => ""⟩ n (.delete Ex.b0)) = false := by
  decide +kernel

/-! ## Examples -/

theorem made_orderOps (flip : Bool) (id : String) :
    Made ⟨0, fun _ => ""⟩ SetArgs (afterOps ⟨0, fun _ => ""⟩ (LModel.new .ising id) (orderOps flip)) := by
  refine made_ops _ (.new _ _) (fun op h clk o e => ?_) (fun m op h => ?_)
  · subst e; cases flip <;> simp [orderOps] at h
  · cases flip <;> simp [orderOps] at h <;> rcases h with rfl | rfl | rfl | rfl <;> trivial

example : ∃ m n : LModel, Made ⟨0, fun _ => ""⟩ SetArgs m ∧ Made ⟨0, fun _ => ""⟩ SetArgs n ∧ m.eq n = true ∧ m ≠ n ∧
    m.constraints = [] :=
  ⟨_, _, made_orderOps false "1", made_orderOps true "2", by decide +kernel, by decide +kernel, by decide +kernel⟩

example : (LModel.new .ising "1").eq (afterOps ⟨0, fun _ => ""⟩ (LModel.new .ising "1") (orderOps true)) = false := by
  decide +kernel

/-- A model whose interactions differ from those of `orderOps`, with the same sums. -/
def splitOps : List Op :=
  [.variables "x" [1], .variables "y" [1],
   .add 1 (.var ⟨.spin, "y[0]"⟩) (.str "p") (.num 2) (.num 1) .none .none,
   .add 1 (.var ⟨.spin, "x[0]"⟩) (.str "q") (.num (1/2)) (.num 1) .none .none,
   .add 1 (.var ⟨.spin, "x[0]"⟩) (.str "r") (.num (1/4)) (.num 2) .none .none]

theorem made_splitOps : Made ⟨0, fun _ => ""⟩ AnyCall (afterOps ⟨0, fun _ => ""⟩ (LModel.new .ising "4") splitOps) := by
  exact made_ops _ (.new _ _) (by simp [splitOps]) fun _ _ _ => trivial

theorem made_orderOps' (flip : Bool) (id : String) :
    Made ⟨0, fun _ => ""⟩ AnyCall (afterOps ⟨0, fun _ => ""⟩ (LModel.new .ising id) (orderOps flip)) := by
  refine made_ops _ (.new _ _) (fun op h clk o e => ?_) fun _ _ _ => trivial
  subst e; cases flip <;> simp [orderOps] at h

/-- Different models with equal physical models. -/
example :
    let m := afterOps ⟨0, fun _ => ""⟩ (LModel.new .ising "1") (orderOps false)
    let n := afterOps ⟨0, fun _ => ""⟩ (LModel.new .ising "4") splitOps
    m.eq n = false ∧ ∃ p q : Physical, p.FromCalls ∧ q.FromCalls ∧ p.eq q = true ∧ p.linear.length = 2 := by
  refine ⟨by decide +kernel, ?_⟩
  obtain ⟨p, m', hp, h⟩ := Ex.exists_of_okAnd (r := (toPhysical ⟨0, fun _ => ""⟩ (fun _ _ => 0) (fun _ => "1") []).run
      (afterOps ⟨0, fun _ => ""⟩ (LModel.new .ising "1") (orderOps false)))
    (p := fun p _ => Ex.okAnd ((toPhysical ⟨0, fun _ => ""⟩ (fun _ _ => 0) (fun _ => "1") []).run
      (afterOps ⟨0, fun _ => ""⟩ (LModel.new .ising "4") splitOps)) fun q _ => p.eq q && p.linear.length == 2)
    (by decide +kernel)
  obtain ⟨q, n', hq, h⟩ := Ex.exists_of_okAnd h
  simp only [Bool.and_eq_true, beq_iff_eq] at h
  exact ⟨p, q, ⟨_, _, _, _, _, _, made_orderOps' false "1", by simp, hp⟩, ⟨_, _, _, _, _, _, made_splitOps, by simp, hq⟩, h⟩

end Sawatabi.Props
