import Verif.Lemmas.World
import Verif.Spec.World
import Verif.Props.Merge
import Verif.Props.SolverMade

/-!
# Merging a model with itself (C90), constraint objects shared between models (C91)
-/

namespace Sawatabi.Props

open Sawatabi

variable {w w' : World} {i j k : Nat} {m m' a b : LModel} {env : Env} {clk : Nat → ℚ}

/-! ## C90: a model merged with itself -/

theorem mergeSelfFront_run (m : LModel) : mergeSelfFront.run m =
    if rankClash m m then .error .valueError m else
    match (m.vars.forM mergeVar).run m with
    | .error e m₁ => .error e m₁
    | .ok _ m₁ =>
      match (mergedAttrs m₁ m₁).mapM (mergedCol m₁ m₁) with
      | .error e => .error e m₁
      | .ok cols => .ok ⟨⟩ (mergedTable m₁ m₁ cols) := by
  unfold mergeSelfFront
  py_simp
  by_cases h : rankClash m m
  · simp only [h, if_true]
  · simp only [h, Bool.false_eq_true, if_false]
    cases (m.vars.forM mergeVar).run m with
    | error e m₁ => rfl
    | ok u m₁ =>
      simp only
      cases (mergedAttrs m₁ m₁).mapM (mergedCol m₁ m₁) with
      | error e => rfl
      | ok cols => rfl

/-- A model merged with itself is, up to the second copy, a model merged with another one that is equal to it. -/
theorem C90_as_copy (env : Env) (clk : Nat → ℚ) (m : LModel) :
    mergeSelf.run m = (Op.call env (.merge clk m)).run m := by
  show _ = (withSnd m (merge env clk)).run m
  unfold withSnd
  simp only
  rw [merge_run, if_pos rfl, mergeSame_run]
  unfold mergeSelf
  rw [Py.run_bind, mergeSelfFront_run]
  by_cases h : rankClash m m
  · simp only [h, if_true]
  · simp only [h, Bool.false_eq_true, if_false]
    obtain ⟨vs, hvs⟩ := mergeVars_rel m.vars m
    cases hr : (m.vars.forM mergeVar).run m with
    | error e m₁ => rfl
    | ok u m₁ =>
      rw [hr] at hvs
      simp only [Res.state] at hvs
      subst hvs
      simp only
      have he : ((mergedAttrs { m with vars := vs } { m with vars := vs }).mapM
          (mergedCol { m with vars := vs } { m with vars := vs })) =
          ((mergedAttrs { m with vars := vs } m).mapM (mergedCol { m with vars := vs } m)) := rfl
      rw [he]
      cases (mergedAttrs { m with vars := vs } m).mapM (mergedCol { m with vars := vs } m) with
      | error e => rfl
      | ok cols =>
        simp only
        py_simp
        unfold constraintClash
        show (if (m.constraints.any fun p => decide (p.1 ∈ dkeys m.constraints)) = true then _ else _) = _
        by_cases hc : (m.constraints.any fun p => decide (p.1 ∈ dkeys m.constraints)) = true
        · simp only [hc, if_true]
          rfl
        · simp only [hc, Bool.false_eq_true, if_false]
          rfl

/-- It succeeds only without constraints, and doubles the energy of every assignment. -/
theorem C90_energy (h : mergeSelf.run m = .ok ⟨⟩ m') (ρ : PEnv) (σ : Assign) :
    m.constraints = [] ∧ m'.energy ρ σ = 2 * m.energy ρ σ := by
  rw [C90_as_copy ⟨0, fun _ => ""⟩ (fun _ => 0)] at h
  have h' : (withSnd m (merge ⟨0, fun _ => ""⟩ fun _ => 0)).run m = .ok ⟨⟩ m' := h
  unfold withSnd at h'
  simp only at h'
  cases hm : (merge ⟨0, fun _ => ""⟩ fun _ => 0).run (m, m) with
  | error e s => rw [hm] at h'; cases h'
  | ok u s =>
    rw [hm] at h'
    simp only [Res.ok.injEq, true_and] at h'
    obtain ⟨s1, s2⟩ := s
    simp only at h'
    subst h'
    refine ⟨?_, ?_⟩
    · cases hcs : m.constraints with
      | nil => rfl
      | cons p cs =>
        have hmm := hm
        rw [merge_run, if_pos rfl, mergeSame_run] at hmm
        split at hmm
        · cases hmm
        · obtain ⟨vs, hvs⟩ := mergeVars_rel m.vars m
          cases hr : (m.vars.forM mergeVar).run m with
          | error e m₁ => rw [hr] at hmm; cases hmm
          | ok u m₁ =>
            rw [hr] at hmm hvs
            simp only [Res.state] at hvs hmm
            subst hvs
            split at hmm
            · cases hmm
            · rw [if_pos] at hmm
              · cases hmm
              · unfold constraintClash
                rw [List.any_eq_true]
                refine ⟨p, ?_, ?_⟩
                · show p ∈ m.constraints
                  rw [hcs]; exact List.mem_cons_self
                · rw [hcs]
                  simp [dkeys]
    · rw [C38_merge_same_type rfl hm]
      ring

/-- Every name occurs twice afterwards: no interaction can be told from its copy by name. -/
theorem C90_names (h : mergeSelf.run m = .ok ⟨⟩ m') :
    m'.names = (m.names ++ m.names).map fun n => n ++ " (" ++ m.id ++ ")" := by
  rw [C90_as_copy ⟨0, fun _ => ""⟩ (fun _ => 0)] at h
  have h' : (withSnd m (merge ⟨0, fun _ => ""⟩ fun _ => 0)).run m = .ok ⟨⟩ m' := h
  unfold withSnd at h'
  simp only at h'
  rw [merge_run, if_pos rfl, mergeSame_run] at h'
  obtain ⟨vs, hvs⟩ := mergeVars_rel m.vars m
  by_cases hr : rankClash m m
  · simp only [hr, if_true] at h'; cases h'
  simp only [hr, Bool.false_eq_true, if_false] at h'
  cases hv : (m.vars.forM mergeVar).run m with
  | error e m₁ => rw [hv] at h'; cases h'
  | ok u m₁ =>
    rw [hv] at h' hvs
    simp only [Res.state] at hvs h'
    subst hvs
    cases hc : (mergedAttrs { m with vars := vs } m).mapM (mergedCol { m with vars := vs } m) with
    | error e => rw [hc] at h'; cases h'
    | ok cols =>
      rw [hc] at h'
      simp only at h'
      split at h'
      · rename_i x y heq
        split at heq
        · cases heq
        · cases heq
          cases h'
          show (mergedRows { m with vars := vs } m).map (fun r : Row => r.name) = _
          unfold mergedRows
          rw [List.map_map]
          have hfun : ∀ p ∈ (m.rows ++ m.rows).zipIdx, ((fun r : Row => r.name) ∘ fun p : Row × Nat =>
              if dupName { m with vars := vs } m p.1.name then
                { p.1 with name := p.1.name ++ " (" ++ (if (p.2 : Int) < m.length then m.id else m.id) ++ ")" }
              else p.1) p = (fun n => n ++ " (" ++ m.id ++ ")") p.1.name := by
            intro p hp
            have hmem : p.1 ∈ m.rows := by
              have := List.fst_mem_of_mem_zipIdx hp
              simpa using this
            have hd : dupName { m with vars := vs } m p.1.name = true := by
              unfold dupName LModel.hasName
              rw [Bool.and_self]
              simpa using ⟨p.1, hmem, rfl⟩
            simp only [Function.comp, hd, if_true, ite_self]
          refine (List.map_congr_left hfun).trans ?_
          have hz : (m.rows ++ m.rows).zipIdx.map (fun p => (fun n => n ++ " (" ++ m.id ++ ")") p.1.name) =
              ((m.rows ++ m.rows).zipIdx.map Prod.fst).map (fun r => (fun n => n ++ " (" ++ m.id ++ ")") r.name) := by
            rw [List.map_map]; rfl
          rw [hz, List.zipIdx_map_fst]
          unfold LModel.names
          rw [← List.map_append, List.map_map]
          rfl
      · cases h'

/-- With a constraint the call raises ValueError, but the interactions are doubled already. -/
theorem C90_constraint_refuted :
    let m := Ex.after Ex.qubo (addConstraint (.nHot "c" 1 [Ex.b1, Ex.b2] 1))
    ∃ m', mergeSelf.run m = .error .valueError m' ∧ m'.rows.length = 2 * m.rows.length ∧ m.rows.length = 3 :=
  ⟨_, rfl, by decide, by decide⟩

example : ∃ m', mergeSelf.run Ex.qubo = .ok ⟨⟩ m' ∧ Ex.qubo.rows ≠ [] := ⟨_, rfl, by decide⟩

/-! ## C91: shared constraint objects -/

theorem mergeFront_run (env : Env) (clk : Nat → ℚ) (a b : LModel) : (mergeFront env clk).run (a, b) =
    match (if a.mtype = b.mtype then Res.ok ⟨⟩ b else (convertMtype env clk).run b : Res LModel Unit) with
    | .error e b₁ => .error e (a, b₁)
    | .ok _ b₁ =>
      if rankClash a b₁ then .error .valueError (a, b₁) else
      match (b₁.vars.forM mergeVar).run a with
      | .error e a₁ => .error e (a₁, b₁)
      | .ok _ a₁ =>
        match (mergedAttrs a₁ b₁).mapM (mergedCol a₁ b₁) with
        | .error e => .error e (a₁, b₁)
        | .ok cols => .ok ⟨⟩ (mergedTable a₁ b₁ cols, b₁) := by
  unfold mergeFront
  py_simp
  have key : ∀ b₁ : LModel, (if rankClash a b₁ = true then Res.error Err.valueError (a, b₁) else
      match (onFst (b₁.vars.forM mergeVar)).run (a, b₁) with
      | Res.ok _ s' => mergeTables.run s'
      | Res.error e s' => Res.error e s') =
      if rankClash a b₁ then .error .valueError (a, b₁) else
      match (b₁.vars.forM mergeVar).run a with
      | .error e a₁ => .error e (a₁, b₁)
      | .ok _ a₁ =>
        match (mergedAttrs a₁ b₁).mapM (mergedCol a₁ b₁) with
        | .error e => .error e (a₁, b₁)
        | .ok cols => .ok ⟨⟩ (mergedTable a₁ b₁ cols, b₁) := by
    intro b₁
    by_cases h : rankClash a b₁
    · simp only [h, if_true]
    · simp only [h, Bool.false_eq_true, if_false]
      rw [onFst_run]
      simp only
      cases (b₁.vars.forM mergeVar).run a with
      | error e a₁ => rfl
      | ok u a₁ =>
        simp only [mergeTables]
        py_simp
        cases (mergedAttrs a₁ b₁).mapM (mergedCol a₁ b₁) with
        | error e => rfl
        | ok cols => rfl
  by_cases ht : a.mtype = b.mtype
  · simp only [ht, ne_eq, not_true_eq_false, if_false, if_true]
    refine Eq.trans ?_ ((key b).trans ?_)
    · by_cases h : rankClash a b
      · simp only [h, if_true]
      · simp only [h, Bool.false_eq_true, if_false]
        cases (onFst (b.vars.forM mergeVar)).run (a, b) <;> rfl
    · rfl
  · simp only [ht, ne_eq, not_false_eq_true, if_false, if_true]
    rw [onSnd_run]
    simp only
    cases (convertMtype env clk).run b with
    | error e b₁ => rfl
    | ok u b₁ =>
      refine Eq.trans ?_ ((key b₁).trans ?_)
      · by_cases h : rankClash a b₁
        · simp only [h, if_true]
        · simp only [h, Bool.false_eq_true, if_false]
          cases (onFst (b₁.vars.forM mergeVar)).run (a, b₁) <;> rfl
      · rfl

/-- `merge` is its first part, then the constraints, then the rest. -/
theorem merge_split (env : Env) (clk : Nat → ℚ) (a b : LModel) : (merge env clk).run (a, b) =
    match (mergeFront env clk).run (a, b) with
    | .error e p => .error e p
    | .ok _ p => if constraintClash p.1 p.2 then .error .valueError p else .ok ⟨⟩ (mergedRest p.1 p.2, p.2) := by
  rw [merge_run, mergeFront_run]
  have key : ∀ b₁ : LModel, mergeSame.run (a, b₁) = match (if rankClash a b₁ then .error .valueError (a, b₁) else
      match (b₁.vars.forM mergeVar).run a with
      | .error e a₁ => .error e (a₁, b₁)
      | .ok _ a₁ =>
        match (mergedAttrs a₁ b₁).mapM (mergedCol a₁ b₁) with
        | .error e => .error e (a₁, b₁)
        | .ok cols => .ok ⟨⟩ (mergedTable a₁ b₁ cols, b₁) : Res (LModel × LModel) PUnit) with
      | .error e p => .error e p
      | .ok _ p => if constraintClash p.1 p.2 then .error .valueError p else .ok ⟨⟩ (mergedRest p.1 p.2, p.2) := by
    intro b₁
    rw [mergeSame_run]
    by_cases h : rankClash a b₁
    · simp only [h, if_true]
    · simp only [h, Bool.false_eq_true, if_false]
      cases (b₁.vars.forM mergeVar).run a with
      | error e a₁ => rfl
      | ok u a₁ =>
        simp only
        cases (mergedAttrs a₁ b₁).mapM (mergedCol a₁ b₁) with
        | error e => rfl
        | ok cols => rfl
  by_cases ht : a.mtype = b.mtype
  · simp only [ht, if_true]
    exact key b
  · simp only [ht, if_false]
    cases (convertMtype env clk).run b with
    | error e b₁ => rfl
    | ok u b₁ => exact key b₁

theorem convertMtype_step (env : Env) (clk : Nat → ℚ) (b : LModel) :
    ((convertMtype env clk).run b).state = Op.step env b (.toIsing clk) ∨
      ((convertMtype env clk).run b).state = Op.step env b (.toQubo clk) := by
  rw [convertMtype_run]
  cases b.mtype
  · exact .inr rfl
  · exact .inl rfl

/-- What `merge` makes of the other model. -/
theorem mergeFront_snd (env : Env) (clk : Nat → ℚ) (a b : LModel) :
    ((mergeFront env clk).run (a, b)).state.2 = b ∨
      ((mergeFront env clk).run (a, b)).state.2 = ((convertMtype env clk).run b).state := by
  rw [mergeFront_run]
  by_cases ht : a.mtype = b.mtype
  · left
    simp only [ht, if_true]
    repeat' split
    all_goals rfl
  · right
    simp only [ht, if_false]
    cases (convertMtype env clk).run b with
    | error e b₁ => rfl
    | ok u b₁ =>
      simp only
      repeat' split
      all_goals rfl

theorem mergeFront_constraints (env : Env) (clk : Nat → ℚ) (a b : LModel) :
    ((mergeFront env clk).run (a, b)).state.1.constraints = a.constraints ∧
      ((mergeFront env clk).run (a, b)).state.2.constraints = b.constraints := by
  refine ⟨?_, ?_⟩
  · rw [mergeFront_run]
    have key : ∀ b₁ : LModel, (if rankClash a b₁ then .error .valueError (a, b₁) else
        match (b₁.vars.forM mergeVar).run a with
        | .error e a₁ => .error e (a₁, b₁)
        | .ok _ a₁ =>
          match (mergedAttrs a₁ b₁).mapM (mergedCol a₁ b₁) with
          | .error e => .error e (a₁, b₁)
          | .ok cols => .ok ⟨⟩ (mergedTable a₁ b₁ cols, b₁) : Res (LModel × LModel) PUnit).state.1.constraints =
          a.constraints := by
      intro b₁
      by_cases h : rankClash a b₁
      · simp only [h, if_true]; rfl
      · simp only [h, Bool.false_eq_true, if_false]
        obtain ⟨vs, hvs⟩ := mergeVars_rel b₁.vars a
        cases hr : (b₁.vars.forM mergeVar).run a with
        | error e a₁ =>
          rw [hr] at hvs
          simp only [Res.state] at hvs
          subst hvs
          rfl
        | ok u a₁ =>
          rw [hr] at hvs
          simp only [Res.state] at hvs
          subst hvs
          simp only
          split <;> rfl
    by_cases ht : a.mtype = b.mtype
    · simp only [ht, if_true]
      exact key b
    · simp only [ht, if_false]
      cases (convertMtype env clk).run b with
      | error e b₁ => rfl
      | ok u b₁ => exact key b₁
  · rcases mergeFront_snd env clk a b with h | h
    · rw [h]
    · rw [h]; exact convertMtype_constraints env clk b

/-- The call of `merge` on two different models in a world. -/
structure MergeFollows (env : Env) (clk : Nat → ℚ) (i j : Nat) (w : World) (a b : LModel) : Prop where
  raised : ((mergeOn env clk i j).run w).raised = ((merge env clk).run (a, b)).raised
  left : ((mergeOn env clk i j).run w).state.model i = some ((merge env clk).run (a, b)).state.1
  right : ((mergeOn env clk i j).run w).state.model j = some ((merge env clk).run (a, b)).state.2
  ok : ((mergeOn env clk i j).run w).state.Ok
  heap : ((mergeOn env clk i j).run w).state.heap = w.heap
  refs : ∀ k, k ≠ i → ((mergeOn env clk i j).run w).state.refs k = w.refs k
  others : ∀ k, k ≠ i → k ≠ j → ((mergeOn env clk i j).run w).state.model k = w.model k

theorem onModels_run {α : Type} {x : Py (LModel × LModel) α} (ha : w.model i = some a) (hb : w.model j = some b) :
    (onModels i j x).run w = match x.run (a, b) with
      | .ok r p => .ok r ((w.put i p.1).put j p.2)
      | .error e p => .error e ((w.put i p.1).put j p.2) := by
  unfold onModels
  simp only [ha, hb]
  cases x.run (a, b) <;> rfl

theorem put_put (hij : i ≠ j) (ha : w.model i = some a) (hb : w.model j = some b) {a' b' : LModel}
    (hca : a'.constraints = a.constraints) (hcb : b'.constraints = b.constraints) :
    ((w.put i a').put j b').model i = some a' ∧ ((w.put i a').put j b').model j = some b' ∧
      (∀ k, k ≠ i → k ≠ j → ((w.put i a').put j b').model k = w.model k) ∧
      ∀ k, ((w.put i a').put j b').refs k = w.refs k := by
  refine ⟨?_, ?_, ?_, ?_⟩
  · rw [put_model_ne hij]
    exact put_model ha hca
  · refine put_model (m := b) ?_ hcb
    rw [put_model_ne (Ne.symm hij)]
    exact hb
  · intro k h1 h2
    rw [put_model_ne h2, put_model_ne h1]
  · intro k
    rw [put_refs, put_refs]

theorem mergeOn_follows (hij : i ≠ j) (hw : w.Ok) (ha : w.model i = some a) (hb : w.model j = some b) :
    MergeFollows env clk i j w a b := by
  obtain ⟨hca, hcb⟩ := mergeFront_constraints env clk a b
  obtain ⟨h1, h2, h3, h4⟩ := put_put hij ha hb hca hcb
  have hsplit := merge_split env clk a b
  have hrun := onModels_run (x := mergeFront env clk) ha hb
  cases hf : (mergeFront env clk).run (a, b) with
  | error e p =>
    rw [hf] at hsplit hrun h1 h2 h3 h4
    simp only [Res.state] at h1 h2 h3 h4
    have hx : (mergeOn env clk i j).run w = .error e ((w.put i p.1).put j p.2) := by
      unfold mergeOn
      rw [Py.run_bind, hrun]
    constructor
    · rw [hx, hsplit]; rfl
    · rw [hx, hsplit]; exact h1
    · rw [hx, hsplit]; exact h2
    · rw [hx]; exact hw.put.put
    · rw [hx]; rfl
    · rw [hx]; exact fun k _ => h4 k
    · rw [hx]; exact h3
  | ok u p =>
    rw [hf] at hsplit hrun h1 h2 h3 h4 hca hcb
    simp only [Res.state] at h1 h2 h3 h4 hca hcb hsplit hrun
    have hx : (mergeOn env clk i j).run w = (if (w.refs i).any (fun q => decide (q.1 ∈ dkeys (w.refs j))) = true then
        Res.error .valueError ((w.put i p.1).put j p.2) else
        (onModels i j mergeFields).run (((w.put i p.1).put j p.2).putRefs i (dupdate (w.refs i) (w.refs j)))) := by
      unfold mergeOn
      rw [Py.run_bind, hrun]
      simp only
      py_simp
      rw [h4, h4]
    have hclash : constraintClash p.1 p.2 = (w.refs i).any (fun q => decide (q.1 ∈ dkeys (w.refs j))) := by
      unfold constraintClash
      rw [hca, hcb, model_constraints hb, dkeys_deref (hw j), model_constraints ha]
      have : ∀ (l : List (String × Constraint)) (K : List String),
          (l.any fun q => decide (q.1 ∈ K)) = (dkeys l).any fun x => decide (x ∈ K) := by
        intro l K; simp [dkeys, List.any_map, Function.comp_def]
      rw [this, dkeys_deref (hw i)]
      simp [dkeys, List.any_map, Function.comp_def]
    by_cases hc : (w.refs i).any (fun q => decide (q.1 ∈ dkeys (w.refs j))) = true
    · rw [if_pos hc] at hx
      rw [if_pos (hclash.trans hc)] at hsplit
      constructor
      · rw [hx, hsplit]; rfl
      · rw [hx, hsplit]; exact h1
      · rw [hx, hsplit]; exact h2
      · rw [hx]; exact hw.put.put
      · rw [hx]; rfl
      · rw [hx]; exact fun k _ => h4 k
      · rw [hx]; exact h3
    · rw [if_neg hc] at hx
      rw [if_neg (fun h => hc (hclash.symm.trans h))] at hsplit
      have hdisj : ∀ k ∈ dkeys (w.refs i), k ∉ dkeys (w.refs j) := by
        intro k hk hk'
        obtain ⟨q, hq, rfl⟩ := List.mem_map.mp hk
        exact hc (List.any_eq_true.mpr ⟨q, hq, by simpa using hk'⟩)
      have hup : dupdate (w.refs i) (w.refs j) = w.refs i ++ w.refs j := dupdate_append (hw j).keys hdisj
      have hupc : dupdate p.1.constraints p.2.constraints = p.1.constraints ++ p.2.constraints := by
        refine dupdate_append ?_ ?_
        · rw [hcb, model_constraints hb, dkeys_deref (hw j)]; exact (hw j).keys
        · rw [hca, hcb, model_constraints ha, model_constraints hb, dkeys_deref (hw i), dkeys_deref (hw j)]
          exact hdisj
      have hdc : deref w.heap (w.refs i ++ w.refs j) = dupdate p.1.constraints p.2.constraints := by
        rw [hupc, deref_append, hca, hcb, model_constraints ha, model_constraints hb]
      rw [hup] at hx
      let w₁ := (w.put i p.1).put j p.2
      let w₂ := w₁.putRefs i (w.refs i ++ w.refs j)
      have hm1 : w₂.model i = some { p.1 with constraints := dupdate p.1.constraints p.2.constraints } := by
        refine (putRefs_model (w := w₁) h1).trans ?_
        show some ({ p.1 with constraints := deref w.heap _ } : LModel) = _
        rw [hdc]
      have hm2 : w₂.model j = some p.2 := (putRefs_model_ne (w := w₁) (Ne.symm hij)).trans h2
      have hok : w₂.Ok := (hw.put.put).putRefs ((hw i).append (hw j) hdisj)
      rw [show (onModels i j mergeFields).run (w₁.putRefs i (w.refs i ++ w.refs j)) =
        .ok ⟨⟩ ((w₂.put i (mergedRest p.1 p.2)).put j p.2) from
          (onModels_run (w := w₂) (x := mergeFields) hm1 hm2).trans rfl] at hx
      obtain ⟨g1, g2, g3, g4⟩ := put_put hij hm1 hm2 (a' := mergedRest p.1 p.2) (b' := p.2) rfl rfl
      constructor
      · rw [hx, hsplit]; rfl
      · rw [hx, hsplit]; exact g1
      · rw [hx, hsplit]; exact g2
      · rw [hx]; exact hok.put.put
      · rw [hx]; rfl
      · rw [hx]
        intro k hk
        refine (g4 k).trans ?_
        exact (putRefs_refs_ne (w := w₁) hk).trans (h4 k)
      · rw [hx]
        intro k hk hk'
        refine (g3 k hk hk').trans ?_
        exact (putRefs_model_ne (w := w₁) hk).trans (h3 k hk hk')

/-! ### The other calls -/

theorem mergeSelfFront_constraints (m : LModel) : (mergeSelfFront.run m).state.constraints = m.constraints := by
  rw [mergeSelfFront_run]
  by_cases h : rankClash m m
  · simp only [h, if_true]; rfl
  · simp only [h, Bool.false_eq_true, if_false]
    obtain ⟨vs, hvs⟩ := mergeVars_rel m.vars m
    cases hr : (m.vars.forM mergeVar).run m with
    | error e a₁ =>
      rw [hr] at hvs
      simp only [Res.state] at hvs
      subst hvs
      rfl
    | ok u a₁ =>
      rw [hr] at hvs
      simp only [Res.state] at hvs
      subst hvs
      simp only
      split <;> rfl

theorem follows_mergeSelf (hw : w.Ok) (h : w.model i = some m) : Follows i (mergeSelfOn i) mergeSelf w m := by
  unfold mergeSelfOn mergeSelf
  refine (follows_onModel hw h (mergeSelfFront_constraints m)).bind fun w' m' _ _ hw' hm' => ?_
  have hc := model_constraints hm'
  cases hr : w'.refs i with
  | cons p r =>
    have hm0 : m'.constraints.any (fun q => decide (q.1 ∈ dkeys m'.constraints)) = true := by
      have hk : dkeys m'.constraints = p.1 :: dkeys r := by rw [hc, dkeys_deref (hw' i), hr]; rfl
      cases hcs : m'.constraints with
      | nil => rw [hcs] at hk; cases hk
      | cons q cs => simp [dkeys]
    refine (follows_throw .valueError hw' hm').congr ?_ ?_
    · py_simp
      rw [hr]
      simp [dkeys]
    · py_simp
      simp only [hm0, if_true]
  | nil =>
    have hm0 : m'.constraints = [] := by rw [hc, hr]; rfl
    refine Follows.congr (x := onModel i (do
        modify fun m => { m with offset := m.offset.add m.offset }
        modify fun m => { m with deleted := m.deleted.foldl sadd m.deleted }
        modify fun m => { m with fixed := m.fixed.foldl sadd m.fixed }))
      (y := (do
        modify fun m => { m with offset := m.offset.add m.offset }
        modify fun m => { m with deleted := m.deleted.foldl sadd m.deleted }
        modify fun m => { m with fixed := m.fixed.foldl sadd m.fixed }))
      (follows_onModel hw' hm' rfl) ?_ ?_
    · have hput : w'.putRefs i [] = w' := by
        unfold World.putRefs
        have : w'.models.modify i (fun h => { h with refs := [] }) = w'.models := by
          apply List.ext_getElem?
          intro k
          rw [List.getElem?_modify]
          by_cases hk : i = k
          · subst hk
            obtain ⟨hm, hh, _⟩ := model_eq_some.mp hm'
            have : hm.refs = [] := by
              unfold World.refs at hr
              rw [hh] at hr
              exact hr
            rw [hh]
            simp [← this]
          · simp [hk]
        rw [this]
      py_simp
      rw [hr]
      simp only [List.any_nil, Bool.false_eq_true, if_false]
      rw [show dupdate ([] : List (String × Nat)) [] = [] from rfl, hput]
    · py_simp
      simp only [hm0, List.any_nil, Bool.false_eq_true, if_false]
      rfl

theorem onSet_label {f : List PVar → Constraint} {l : String} {x : Py (List PVar) Unit} {vs : List PVar}
    {c : Constraint} (h : onSet f x vs = .ok c) (hf : ∀ t, (f t).label = l) : c.label = l := by
  unfold onSet at h
  split at h
  · cases h; exact hf _
  · cases h

theorem edit_label {e : Edit} {c c' : Constraint} (h : c.edit e = .ok c') : c'.label = c.label := by
  cases c <;> cases e <;> simp only [Constraint.edit] at h <;> first | cases h | skip
  all_goals exact onSet_label h fun _ => rfl

/-- What a call on a constraint object does. -/
theorem editObject_run (addr : Nat) (e : Edit) (w : World) :
    (∃ err, (editObject addr e).run w = .error err w) ∨
      ∃ c c', w.heap[addr]? = some c ∧ c.edit e = .ok c' ∧
        (editObject addr e).run w = .ok ⟨⟩ { w with heap := w.heap.set addr c' } := by
  cases hc : w.heap[addr]? with
  | none => exact .inl ⟨.indexError, by unfold editObject; py_simp; rw [hc]; rfl⟩
  | some c =>
    cases he : c.edit e with
    | error err => exact .inl ⟨err, by unfold editObject; py_simp; rw [hc]; simp only [he]; rfl⟩
    | ok c' => exact .inr ⟨c, c', rfl, he, by unfold editObject; py_simp; rw [hc]; simp only [he]; rfl⟩

/-- **C34**, constraint objects: a call succeeds exactly if the class has the method, the argument is one or more variables
and, for a removal, all of them are in the set. Then that set changes and nothing else. Otherwise the call raises, with the
error that belongs to the first of these conditions that fails. -/
theorem C34_edit (e : Edit) (c : Constraint) (hd : c.OfSets) :
    ((∃ s, e.About c s ∧ e.arg.Valid ∧ (e.Removes → ∀ v, e.arg.Has v → v ∈ s)) →
      ∃ c', c.edit e = .ok c' ∧ Edited e c c' ∧ c'.OfSets) ∧
    ((∀ s, ¬ e.About c s) → c.edit e = .error .attributeError) ∧
    (∀ s, e.About c s → ¬ e.arg.Valid → c.edit e = .error .typeError) ∧
    (∀ s, e.About c s → e.arg.Valid → e.Removes → (¬ ∀ v, e.arg.Has v → v ∈ s) → c.edit e = .error .valueError) := by
  have key : ∀ {s : List PVar} (f : List PVar → Constraint), s.Nodup →
      (e.arg.Valid → ∃ t, onSet f (addVariable e.arg) s = .ok (f t) ∧ SetJoined e.arg s t) ∧
      (¬ e.arg.Valid → onSet f (addVariable e.arg) s = .error .typeError) ∧
      (e.arg.Valid → (∀ v, e.arg.Has v → v ∈ s) →
        ∃ t, onSet f (Sawatabi.removeVariable e.arg) s = .ok (f t) ∧ SetReduced e.arg s t) ∧
      (¬ e.arg.Valid → onSet f (Sawatabi.removeVariable e.arg) s = .error .typeError) ∧
      (e.arg.Valid → (¬ ∀ v, e.arg.Has v → v ∈ s) →
        onSet f (Sawatabi.removeVariable e.arg) s = .error .valueError) := by
    intro s f hn
    unfold onSet
    refine ⟨fun h => ?_, fun h => ?_, fun h hs => ?_, fun h => ?_, fun h hs => ?_⟩
    · obtain ⟨t, ht, h1, h2⟩ := (C34_add e.arg s hn).1 h
      rw [ht]; exact ⟨t, rfl, h1, h2⟩
    · rw [(C34_add e.arg s hn).2 h]
    · obtain ⟨t, ht, h1, h2⟩ := (C34_remove e.arg s hn).1 h hs
      rw [ht]; exact ⟨t, rfl, h1, h2⟩
    · rw [(C34_remove e.arg s hn).2.2 h]
    · rw [(C34_remove e.arg s hn).2.1 h hs]
  have one : ∀ {s : List PVar}, s.Nodup → ∀ t ∈ [s], t.Nodup := by
    intro s hs t ht
    rw [List.mem_singleton.mp ht]
    exact hs
  have two : ∀ {s u : List PVar}, s.Nodup → u.Nodup → ∀ t ∈ [s, u], t.Nodup := by
    intro s u hs hu t ht
    rcases List.mem_cons.mp ht with rfl | ht
    · exact hs
    · rw [List.mem_singleton.mp ht]
      exact hu
  refine ⟨?_, ?_, ?_, ?_⟩
  · rintro ⟨s, hab, hv, hr⟩
    cases hab
    case nHotAdd l k n =>
      obtain ⟨t, ht, hj⟩ := (key (fun t => .nHot l k t n) (hd _ (.head _))).1 hv
      exact ⟨_, ht, .nHotAdd l k n hj, one hj.1⟩
    case nHotRemove l k n =>
      obtain ⟨t, ht, hj⟩ := (key (fun t => .nHot l k t n) (hd _ (.head _))).2.2.1 hv (hr trivial)
      exact ⟨_, ht, .nHotRemove l k n hj, one hj.1⟩
    case zeroAdd l k =>
      obtain ⟨t, ht, hj⟩ := (key (fun t => .zeroOrOneHot l k t) (hd _ (.head _))).1 hv
      exact ⟨_, ht, .zeroAdd l k hj, one hj.1⟩
    case zeroRemove l k =>
      obtain ⟨t, ht, hj⟩ := (key (fun t => .zeroOrOneHot l k t) (hd _ (.head _))).2.2.1 hv (hr trivial)
      exact ⟨_, ht, .zeroRemove l k hj, one hj.1⟩
    case firstAdd l k u =>
      obtain ⟨t, ht, hj⟩ := (key (fun t => .equality l k t u) (hd _ (.head _))).1 hv
      exact ⟨_, ht, .firstAdd l k u hj, two hj.1 (hd _ (.tail _ (.head _)))⟩
    case secondAdd l k u =>
      obtain ⟨t, ht, hj⟩ := (key (fun t => .equality l k u t) (hd _ (.tail _ (.head _)))).1 hv
      exact ⟨_, ht, .secondAdd l k u hj, two (hd _ (.head _)) hj.1⟩
    case firstRemove l k u =>
      obtain ⟨t, ht, hj⟩ := (key (fun t => .equality l k t u) (hd _ (.head _))).2.2.1 hv (hr trivial)
      exact ⟨_, ht, .firstRemove l k u hj, two hj.1 (hd _ (.tail _ (.head _)))⟩
    case secondRemove l k u =>
      obtain ⟨t, ht, hj⟩ := (key (fun t => .equality l k u t) (hd _ (.tail _ (.head _)))).2.2.1 hv (hr trivial)
      exact ⟨_, ht, .secondRemove l k u hj, two (hd _ (.head _)) hj.1⟩
  · intro h
    cases c <;> cases e <;> first | rfl | exact absurd (by constructor) (h _)
  · intro s hab hv
    cases hab
    case nHotAdd l k n => exact (key (fun t => .nHot l k t n) (hd _ (.head _))).2.1 hv
    case nHotRemove l k n => exact (key (fun t => .nHot l k t n) (hd _ (.head _))).2.2.2.1 hv
    case zeroAdd l k => exact (key (fun t => .zeroOrOneHot l k t) (hd _ (.head _))).2.1 hv
    case zeroRemove l k => exact (key (fun t => .zeroOrOneHot l k t) (hd _ (.head _))).2.2.2.1 hv
    case firstAdd l k u => exact (key (fun t => .equality l k t u) (hd _ (.head _))).2.1 hv
    case secondAdd l k u => exact (key (fun t => .equality l k u t) (hd _ (.tail _ (.head _)))).2.1 hv
    case firstRemove l k u => exact (key (fun t => .equality l k t u) (hd _ (.head _))).2.2.2.1 hv
    case secondRemove l k u => exact (key (fun t => .equality l k u t) (hd _ (.tail _ (.head _)))).2.2.2.1 hv
  · intro s hab hv hr hs
    cases hab
    case nHotAdd => exact hr.elim
    case nHotRemove l k n => exact (key (fun t => .nHot l k t n) (hd _ (.head _))).2.2.2.2 hv hs
    case zeroAdd => exact hr.elim
    case zeroRemove l k => exact (key (fun t => .zeroOrOneHot l k t) (hd _ (.head _))).2.2.2.2 hv hs
    case firstAdd => exact hr.elim
    case secondAdd => exact hr.elim
    case firstRemove l k u => exact (key (fun t => .equality l k t u) (hd _ (.head _))).2.2.2.2 hv hs
    case secondRemove l k u => exact (key (fun t => .equality l k u t) (hd _ (.tail _ (.head _)))).2.2.2.2 hv hs

/-- **C34**, the call in a world: it changes the object and no other, and neither the models nor what they refer to. -/
theorem C34_edit_world (addr : Nat) (e : Edit) (w w' : World) (c : Constraint) (hc : w.heap[addr]? = some c)
    (hd : c.OfSets) (h : (editObject addr e).run w = .ok () w') :
    (∃ c', w'.heap[addr]? = some c' ∧ Edited e c c') ∧ (∀ k, k ≠ addr → w'.heap[k]? = w.heap[k]?) ∧
      w'.models = w.models := by
  rcases editObject_run addr e w with ⟨err, hx⟩ | ⟨c₀, c', hc₀, he, hx⟩
  · rw [hx] at h; cases h
  · rw [hc] at hc₀
    cases hc₀
    rw [hx] at h
    cases h
    obtain ⟨hlt, -⟩ := List.getElem?_eq_some_iff.mp hc
    refine ⟨⟨c', by simp [hlt], ?_⟩, fun k hk => List.getElem?_set_ne (Ne.symm hk), rfl⟩
    obtain ⟨h1, h2, h3, h4⟩ := C34_edit e c hd
    by_cases hab : ∃ s, e.About c s
    · obtain ⟨s, hab⟩ := hab
      by_cases hv : e.arg.Valid
      · by_cases hr : e.Removes → ∀ v, e.arg.Has v → v ∈ s
        · obtain ⟨c'', hc'', hed, -⟩ := h1 ⟨s, hab, hv, hr⟩
          rw [he] at hc''
          cases hc''
          exact hed
        · rw [Classical.not_imp] at hr
          rw [h4 s hab hv hr.1 hr.2] at he
          cases he
      · rw [h3 s hab hv] at he
        cases he
    · rw [h2 fun s hs => hab ⟨s, hs⟩] at he
      cases he

example : ∃ s, (Edit.remove2 (.var Ex.b1)).About (.equality "c" 2 [Ex.b0] [Ex.b0, Ex.b1]) s ∧
    (Edit.remove2 (.var Ex.b1)).arg.Valid ∧ ∀ v, (Edit.remove2 (.var Ex.b1)).arg.Has v → v ∈ s :=
  ⟨_, .secondRemove, trivial, fun v hv => by
    have : v = Ex.b1 := hv
    subst this
    simp⟩

example : (Constraint.edit (.remove2 (.var Ex.b1)) (.equality "c" 2 [Ex.b0] [Ex.b0, Ex.b1])) =
    .ok (.equality "c" 2 [Ex.b0] [Ex.b0]) := by decide +kernel

/-! ### Worlds that come out of calls -/

theorem dset_middle {κ ν : Type} [DecidableEq κ] {p d : List (κ × ν)} {k : κ} {v v' : ν} (h : k ∉ dkeys p) :
    dset (p ++ (k, v) :: d) k v' = p ++ (k, v') :: d := by
  induction p with
  | nil => simp [dset]
  | cons q p ih =>
    simp only [dkeys, List.map_cons, List.mem_cons, not_or] at h
    simp only [List.cons_append, dset]
    rw [if_neg (Ne.symm h.1), ih h.2]

theorem dupdate_same {κ ν : Type} [DecidableEq κ] {p d e : List (κ × ν)} (he : (dkeys (p ++ e)).Nodup)
    (h : dkeys d = dkeys e) : dupdate (p ++ d) e = p ++ e := by
  induction e generalizing p d with
  | nil =>
    have : d = [] := by simpa [dkeys] using h
    subst this
    rfl
  | cons q e ih =>
    cases d with
    | nil => cases h
    | cons r d =>
      simp only [dkeys, List.map_cons, List.cons.injEq] at h
      obtain ⟨h1, h2⟩ := h
      obtain ⟨k, v⟩ := q
      obtain ⟨k', v'⟩ := r
      simp only at h1
      subst h1
      have hk : k' ∉ dkeys p := by
        unfold dkeys at he ⊢
        rw [List.map_append, List.nodup_append] at he
        exact fun hc => he.2.2 _ hc k' List.mem_cons_self rfl
      have : dupdate (p ++ (k', v') :: d) ((k', v) :: e) = dupdate ((p ++ [(k', v)]) ++ d) e := by
        unfold dupdate
        rw [List.foldl_cons, dset_middle hk]
        simp
      rw [this, ih (by simpa using he) h2]
      simp

/-- Constraints registered one after the other. -/
theorem made_register {P : LModel → Op → Prop} (hP : Lax P) (hm : Made env P m) {e : List (String × Constraint)}
    (he : ∀ p ∈ e, p.2.label = p.1) : Made env P { m with constraints := dupdate m.constraints e } := by
  induction e generalizing m with
  | nil => exact hm
  | cons p e ih =>
    have h1 : Made env P ((Op.addConstraint p.2).step env m) :=
      .step m (.addConstraint p.2) hm (hP.addConstraint _ _) fun _ _ h => by cases h
    have h2 := ih h1 fun q hq => he q (List.mem_cons_of_mem _ hq)
    have hst : (Op.addConstraint p.2).step env m = { m with constraints := dset m.constraints p.1 p.2 } := by
      rw [← he p List.mem_cons_self]
      rfl
    rw [hst] at h2
    exact h2

/-- A model whose constraint objects changed elsewhere still is one that calls on it can make. -/
theorem made_reload {P : LModel → Op → Prop} (hP : Lax P) (hm : Made env P m) {heap heap' : List Constraint}
    {refs : List (String × Nat)} (hr : RefsOk heap refs) (hl : HeapLe heap heap') (hc : m.constraints = deref heap refs) :
    Made env P { m with constraints := deref heap' refs } := by
  have hr' := hr.mono hl
  have hd : dupdate m.constraints (deref heap' refs) = deref heap' refs := by
    refine dupdate_same (p := []) ?_ ?_
    · rw [List.nil_append, dkeys_deref hr']; exact hr.keys
    · show dkeys m.constraints = _
      rw [hc, dkeys_deref hr, dkeys_deref hr']
  have := made_register (e := deref heap' refs) hP hm ?_
  · rw [hd] at this
    exact this
  · intro p hp
    obtain ⟨q, hq, hqp⟩ := List.mem_filterMap.mp hp
    obtain ⟨c, hc', hcl⟩ := hr'.objects q hq
    rw [hc'] at hqp
    simp only [Option.map_some, Option.some.injEq] at hqp
    subst hqp
    exact hcl

theorem merge_snd (env : Env) (clk : Nat → ℚ) (a b : LModel) :
    ((merge env clk).run (a, b)).state.2 = b ∨
      ((merge env clk).run (a, b)).state.2 = Op.step env b (.toIsing clk) ∨
      ((merge env clk).run (a, b)).state.2 = Op.step env b (.toQubo clk) := by
  have h : ((merge env clk).run (a, b)).state.2 = ((mergeFront env clk).run (a, b)).state.2 := by
    rw [merge_split]
    cases (mergeFront env clk).run (a, b) with
    | error e p => rfl
    | ok u p =>
      simp only
      by_cases hc : constraintClash p.1 p.2
      · simp only [hc, if_true]; rfl
      · simp only [hc, Bool.false_eq_true, if_false]; rfl
  rw [h]
  rcases mergeFront_snd env clk a b with h | h
  · exact .inl h
  · rw [h]
    exact .inr (convertMtype_step env clk b)

theorem merge_fst (env : Env) (clk : Nat → ℚ) (a b : LModel) :
    ((merge env clk).run (a, b)).state.1 = Op.step env a (.merge clk b) := by
  show _ = ((withSnd b (merge env clk)).run a).state
  unfold withSnd
  simp only
  cases (merge env clk).run (a, b) <;> rfl

/-- What a call in a world does to it: the objects keep their labels, and each model is new, or the result of a call on it,
or the same with its constraints read again. -/
structure Moves (env : Env) (w w' : World) (op : WOp) : Prop where
  ok : w'.Ok
  heap : HeapLe w.heap w'.heap
  models : ∀ k n', w'.model k = some n' →
    (w.model k = none ∧ ∃ mt id, n' = LModel.new mt id) ∨
    (∃ n, w.model k = some n ∧ n' = { n with constraints := deref w'.heap (w.refs k) }) ∨
    (∃ n o, w.model k = some n ∧ op = .call k o ∧ n' = o.step env n ∧ o.Single) ∨
    (∃ n c, w.model k = some n ∧ n' = (Op.addConstraint c).step env n) ∨
    (∃ n clk, w.model k = some n ∧ (n' = (Op.toIsing clk).step env n ∨ n' = (Op.toQubo clk).step env n)) ∨
    (∃ n clk j o, w.model k = some n ∧ w.model j = some o ∧ n' = (Op.merge clk o).step env n)

theorem Moves.same (hw : w.Ok) (op : WOp) : Moves env w w op := by
  refine ⟨hw, HeapLe.refl _, fun k n' h => .inr (.inl ⟨n', h, ?_⟩)⟩
  rw [← model_constraints h]

theorem Moves.follows {x : Py World Unit} {y : Py LModel Unit} {op : WOp} (hm : w.model i = some m) (h : Follows i x y w m)
    (hy : (∃ o, op = .call i o ∧ (y.run m).state = o.step env m ∧ o.Single) ∨
      (∃ c, (y.run m).state = (Op.addConstraint c).step env m) ∨
      (∃ clk j o, w.model j = some o ∧ (y.run m).state = (Op.merge clk o).step env m)) :
    Moves env w (x.run w).state op := by
  refine ⟨h.ok, h.heap, fun k n' hk => ?_⟩
  by_cases hki : k = i
  · subst hki
    rw [h.model] at hk
    injection hk with hk
    subst hk
    rcases hy with ⟨o, ho, hs, hS⟩ | ⟨c, hs⟩ | ⟨clk, j, o, hj, hs⟩
    · exact .inr (.inr (.inl ⟨m, o, hm, ho, hs, hS⟩))
    · exact .inr (.inr (.inr (.inl ⟨m, c, hm, hs⟩)))
    · exact .inr (.inr (.inr (.inr (.inr ⟨m, clk, j, o, hm, hj, hs⟩))))
  · rw [(h.others k hki).2] at hk
    cases hn : w.model k with
    | none => rw [hn] at hk; cases hk
    | some n =>
      rw [hn] at hk
      injection hk with hk
      exact .inr (.inl ⟨n, rfl, hk.symm⟩)

theorem onModel_none {x : Py LModel Unit} (h : w.model i = none) : (onModel i x).run w = .error .indexError w := by
  unfold onModel
  simp only [h]

theorem call_none {o : Op} (h : w.model i = none) : ((WOp.call i o).step env w) = w := by
  unfold WOp.step WOp.run
  cases o with
  | delete v =>
    simp only
    unfold deleteOn
    rw [Py.run_bind, onModel_none h]
    rfl
  | removeConstraint l =>
    simp only
    unfold unregisterConstraint
    py_simp
    rw [refs_nil h]
    rfl
  | addConstraint c => rfl
  | merge clk o => rfl
  | _ =>
    simp only
    rw [onModel_none h]
    rfl

theorem register_none (h : w.model i = none ∨ w.heap[j]? = none) : (registerConstraint i j).run w = .error .indexError w := by
  unfold registerConstraint
  py_simp
  rcases h with h | h
  · have : w.models[i]? = none := by
      unfold World.model at h
      exact Option.map_eq_none_iff.mp h
    rw [this]
    rfl
  · rw [h]
    cases w.models[i]? <;> rfl

theorem mergeOn_none (h : w.model i = none ∨ w.model j = none) : (mergeOn env clk i j).run w = .error .indexError w := by
  unfold mergeOn
  rw [Py.run_bind]
  have : (onModels i j (mergeFront env clk)).run w = .error .indexError w := by
    unfold onModels
    rcases h with h | h
    · simp only [h]
    · simp only [h]
      cases w.model i <;> rfl
  rw [this]

theorem heap_none {heap : List Constraint} (h : w.model k = none) : ({ w with heap := heap } : World).model k = none := by
  unfold World.model at h ⊢
  rw [Option.map_eq_none_iff] at h ⊢
  exact h

theorem moves_heap (hw : w.Ok) {heap : List Constraint} (hl : HeapLe w.heap heap) (op : WOp) :
    Moves env w { w with heap := heap } op := by
  refine ⟨hw.heap hl, hl, fun k n' hk => ?_⟩
  cases hn : w.model k with
  | none => rw [heap_none hn] at hk; cases hk
  | some n =>
    rw [heap_model hn] at hk
    injection hk with hk
    exact .inr (.inl ⟨n, rfl, hk.symm⟩)

theorem moves (env : Env) (hw : w.Ok) (op : WOp) : Moves env w (op.step env w) op := by
  cases op with
  | newModel mt id =>
    show Moves env w { w with models := w.models ++ [⟨LModel.new mt id, []⟩] } _
    refine ⟨?_, HeapLe.refl _, ?_⟩
    · intro k
      unfold World.refs
      simp only
      by_cases hk : k < w.models.length
      · rw [List.getElem?_append_left hk]
        exact hw k
      · rw [List.getElem?_append_right (Nat.le_of_not_lt hk)]
        cases hd : k - w.models.length with
        | zero => exact refsOk_nil _
        | succ d => exact refsOk_nil _
    · intro k n' hn'
      unfold World.model at hn'
      simp only at hn'
      by_cases hk : k < w.models.length
      · rw [List.getElem?_append_left hk] at hn'
        have hn : w.model k = some n' := hn'
        refine .inr (.inl ⟨n', hn, ?_⟩)
        show n' = { n' with constraints := deref w.heap (w.refs k) }
        rw [← model_constraints hn]
      · rw [List.getElem?_append_right (Nat.le_of_not_lt hk)] at hn'
        left
        refine ⟨?_, mt, id, ?_⟩
        · unfold World.model
          rw [List.getElem?_eq_none (Nat.le_of_not_lt hk)]
          rfl
        · cases hd : k - w.models.length with
          | zero =>
            rw [hd] at hn'
            simp only [List.getElem?_cons_zero, Option.map_some, Option.some.injEq] at hn'
            rw [← hn']
            rfl
          | succ d => rw [hd] at hn'; simp at hn'
  | newConstraint c => exact moves_heap hw (HeapLe.append _ c) _
  | edit addr e =>
    show Moves env w ((editObject addr e).run w).state _
    rcases editObject_run addr e w with ⟨err, h⟩ | ⟨c, c', hc, he, h⟩
    · rw [h]; exact Moves.same hw _
    · rw [h]; exact moves_heap hw (HeapLe.set hc (edit_label he)) _
  | register i a =>
    show Moves env w ((registerConstraint i a).run w).state _
    cases hm : w.model i with
    | none => rw [register_none (.inl hm)]; exact Moves.same hw _
    | some m =>
      cases hc : w.heap[a]? with
      | none => rw [register_none (.inr hc)]; exact Moves.same hw _
      | some c => exact Moves.follows hm (follows_register hc hw hm) (.inr (.inl ⟨c, rfl⟩))
  | call i o =>
    cases hm : w.model i with
    | none => rw [call_none hm]; exact Moves.same hw _
    | some m =>
      by_cases ho : o.Single
      · exact Moves.follows hm (follows_call env ho hw hm) (.inl ⟨o, rfl, rfl, ho⟩)
      · have : (WOp.call i o).step env w = w := by
          cases o <;> first | exact absurd trivial ho | rfl
        rw [this]
        exact Moves.same hw _
  | merge clk i j =>
    by_cases hij : i = j
    · subst hij
      have : (WOp.merge clk i i).step env w = ((mergeSelfOn i).run w).state := by
        unfold WOp.step WOp.run
        simp only [if_true]
      rw [this]
      cases hm : w.model i with
      | none =>
        have : (mergeSelfOn i).run w = .error .indexError w := by
          unfold mergeSelfOn
          rw [Py.run_bind, onModel_none hm]
        rw [this]
        exact Moves.same hw _
      | some m =>
        refine Moves.follows hm (follows_mergeSelf hw hm) (.inr (.inr ⟨clk, i, m, hm, ?_⟩))
        rw [C90_as_copy env clk]
        rfl
    · have : (WOp.merge clk i j).step env w = ((mergeOn env clk i j).run w).state := by
        unfold WOp.step WOp.run
        simp only [if_neg hij]
      rw [this]
      cases ha : w.model i with
      | none => rw [mergeOn_none (.inl ha)]; exact Moves.same hw _
      | some a =>
        cases hb : w.model j with
        | none => rw [mergeOn_none (.inr hb)]; exact Moves.same hw _
        | some b =>
          have hf := mergeOn_follows (env := env) (clk := clk) hij hw ha hb
          refine ⟨hf.ok, by rw [hf.heap]; exact HeapLe.refl _, fun k n' hk => ?_⟩
          by_cases hki : k = i
          · subst hki
            rw [hf.left] at hk
            injection hk with hk
            exact .inr (.inr (.inr (.inr (.inr ⟨a, clk, j, b, ha, hb, by rw [← hk, merge_fst]⟩))))
          · by_cases hkj : k = j
            · subst hkj
              rw [hf.right] at hk
              injection hk with hk
              rcases merge_snd env clk a b with h | h | h
              · refine .inr (.inl ⟨b, hb, ?_⟩)
                rw [hf.heap, ← model_constraints hb, ← hk, h]
              · exact .inr (.inr (.inr (.inr (.inl ⟨b, clk, hb, .inl (hk.symm.trans h)⟩))))
              · exact .inr (.inr (.inr (.inr (.inl ⟨b, clk, hb, .inr (hk.symm.trans h)⟩))))
            · rw [hf.others k hki hkj] at hk
              refine .inr (.inl ⟨n', hk, ?_⟩)
              rw [hf.heap, ← model_constraints hk]

theorem lives_ok {P : LModel → Op → Prop} (h : Lives env P w) : w.Ok := by
  induction h with
  | start => exact fun k => refsOk_nil _
  | step w op _ _ ih => exact (moves env ih op).ok

/-- Models that share constraint objects still only have states that calls on separate models can bring about. So what is
proved about those holds for them. -/
theorem C91_made {P : LModel → Op → Prop} (hP : Lax P) (h : Lives env P w) (hm : w.model i = some m) : Made env P m := by
  induction h generalizing i m with
  | start => cases hm
  | step w op h hp ih =>
    have hw := lives_ok h
    have hmv := moves env hw op
    rcases hmv.models i m hm with ⟨_, mt, id, rfl⟩ | ⟨n, hn, rfl⟩ | ⟨n, o, hn, rfl, rfl, ho⟩ | ⟨n, c, hn, rfl⟩ |
      ⟨n, clk, hn, rfl | rfl⟩ | ⟨n, clk, j, o, hn, hj, rfl⟩
    · exact .new mt id
    · exact made_reload hP (ih hn) (hw i) hmv.heap (model_constraints hn)
    · refine .step n o (ih hn) (hp n hn) fun clk o' he => ?_
      subst he
      exact ho.elim
    · exact .step n _ (ih hn) (hP.addConstraint _ _) fun _ _ he => by cases he
    · exact .step n _ (ih hn) (hP.toIsing _ _) fun _ _ he => by cases he
    · exact .step n _ (ih hn) (hP.toQubo _ _) fun _ _ he => by cases he
    · refine .step n _ (ih hn) (hP.merge _ _ _) fun clk' o' he => ?_
      cases he
      exact ih hj

theorem lax_any : Lax AnyCall := ⟨fun _ _ => trivial, fun _ _ _ => trivial, fun _ _ => trivial, fun _ _ => trivial⟩

theorem lax_known : Lax KnownKeys := ⟨fun _ _ => trivial, fun _ _ _ => trivial, fun _ _ => trivial, fun _ _ => trivial⟩

/-! ### What a call does to its own model and to the others -/

theorem onModel_heap {α : Type} (i : Nat) (x : Py LModel α) (w : World) : ((onModel i x).run w).state.heap = w.heap := by
  unfold onModel
  simp only
  split
  · rfl
  · split <;> rfl

/-- A call on a model does to it, and raises, what it does when no other model exists. -/
theorem C91_call {P : LModel → Op → Prop} (h : Lives env P w) (hm : w.model i = some m) {o : Op} (ho : o.Single) :
    (((WOp.call i o).run env).run w).raised = ((o.call env).run m).raised ∧
      ((WOp.call i o).step env w).model i = some (o.step env m) :=
  have := follows_call env ho (lives_ok h) hm
  ⟨this.raised, this.model⟩

/-- The same for `add_constraint`. -/
theorem C91_register {P : LModel → Op → Prop} (h : Lives env P w) (hm : w.model i = some m) {addr : Nat} {c : Constraint}
    (hc : w.heap[addr]? = some c) :
    (((WOp.register i addr).run env).run w).raised = ((addConstraint c).run m).raised ∧
      ((WOp.register i addr).step env w).model i = some ((Op.addConstraint c).step env m) :=
  have := follows_register hc (lives_ok h) hm
  ⟨this.raised, this.model⟩

/-- The same for `merge`, also of a model with itself. -/
theorem C91_merge {P : LModel → Op → Prop} (h : Lives env P w) (ha : w.model i = some a) (hb : w.model j = some b) :
    (((WOp.merge clk i j).run env).run w).raised = ((Op.call env (.merge clk b)).run a).raised ∧
      ((WOp.merge clk i j).step env w).model i = some ((Op.merge clk b).step env a) ∧
      (i ≠ j → ((WOp.merge clk i j).step env w).model j = some ((merge env clk).run (a, b)).state.2) ∧
      ∀ k, k ≠ i → k ≠ j → ((WOp.merge clk i j).step env w).model k = w.model k := by
  have hw := lives_ok h
  by_cases hij : i = j
  · subst hij
    rw [ha] at hb
    injection hb with hb
    subst hb
    have hf := follows_mergeSelf hw ha
    have hrun : (WOp.merge clk i i).run env = mergeSelfOn i := by unfold WOp.run; simp only [if_true]
    unfold WOp.step Op.step
    rw [hrun, ← C90_as_copy env clk]
    refine ⟨hf.raised, hf.model, fun hc => absurd rfl hc, fun k hk _ => ?_⟩
    have hheap : ((mergeSelfOn i).run w).state.heap = w.heap := by
      unfold mergeSelfOn
      rw [Py.run_bind, onModel_run ha]
      cases mergeSelfFront.run a with
      | error e a₁ => rfl
      | ok u a₁ =>
        simp only
        py_simp
        split
        · rfl
        · exact onModel_heap _ _ _
    rw [(hf.others k hk).2, hheap]
    exact model_same.symm
  · have hf := mergeOn_follows (env := env) (clk := clk) hij hw ha hb
    have hrun : (WOp.merge clk i j).run env = mergeOn env clk i j := by unfold WOp.run; simp only [if_neg hij]
    unfold WOp.step
    rw [hrun, ← merge_fst]
    refine ⟨hf.raised.trans ?_, hf.left, fun _ => hf.right, hf.others⟩
    show _ = ((withSnd b (merge env clk)).run a).raised
    unfold withSnd
    simp only
    cases (merge env clk).run (a, b) <;> rfl

/-- A call on one model that is not `delete_variable` leaves every other model as it is, shared objects or not. -/
theorem C91_frame {P : LModel → Op → Prop} (h : Lives env P w) {o : Op} (ho : ∀ v, o ≠ .delete v) (hj : j ≠ i) :
    ((WOp.call i o).step env w).model j = w.model j := by
  have hw := lives_ok h
  cases hm : w.model i with
  | none => rw [call_none hm]
  | some m =>
    by_cases hS : o.Single
    · have hf := follows_call env hS hw hm
      have hheap : ((WOp.call i o).step env w).heap = w.heap := by
        unfold WOp.step WOp.run
        cases o with
        | delete v => exact absurd rfl (ho v)
        | removeConstraint l =>
          simp only
          unfold unregisterConstraint
          py_simp
          split <;> rfl
        | addConstraint c => rfl
        | merge clk o => rfl
        | _ =>
          simp only
          rw [onModel_run hm]
          split <;> rfl
      have := (hf.others j hj).2
      refine this.trans ?_
      show Option.map (fun n : LModel => { n with constraints := deref ((WOp.call i o).step env w).heap (w.refs j) }) _ = _
      rw [hheap]
      exact model_same.symm
    · have : (WOp.call i o).step env w = w := by
        cases o <;> first | exact absurd trivial hS | rfl
      rw [this]

/-- One round of the constraint loop of `delete_variable` changes one object at most. -/
theorem removeFromObject_run (v : PVar) (l : String) (w : World) :
    (∃ e, (removeFromObject i v l).run w = .error e w) ∨
      ∃ a c c', dget (w.refs i) l = some a ∧ w.heap[a]? = some c ∧ c.removeVariable v = .ok c' ∧
        (removeFromObject i v l).run w = .ok ⟨⟩ { w with heap := w.heap.set a c' } := by
  cases hg : dget (w.refs i) l with
  | none => exact .inl ⟨.keyError, by unfold removeFromObject; py_simp; rw [hg]; rfl⟩
  | some a =>
    cases hc : w.heap[a]? with
    | none => exact .inl ⟨.keyError, by unfold removeFromObject; py_simp; rw [hg]; simp only [hc]; rfl⟩
    | some c =>
      cases hr : c.removeVariable v with
      | error e => exact .inl ⟨e, by unfold removeFromObject; py_simp; rw [hg]; simp only [hc, hr]; rfl⟩
      | ok c' =>
        exact .inr ⟨a, c, c', rfl, hc, hr, by unfold removeFromObject; py_simp; rw [hg]; simp only [hc, hr]; rfl⟩

/-- The loop changes an object at most once, and only objects of its model. -/
theorem removeLoop_heap (v : PVar) (ls : List String) (hn : ls.Nodup) (w : World) (hw : RefsOk w.heap (w.refs i)) (a : Nat) :
    ((ls.forM (removeFromObject i v)).run w).state.heap[a]? = w.heap[a]? ∨
      ∃ l ∈ ls, dget (w.refs i) l = some a ∧ ∃ c c' : Constraint, w.heap[a]? = some c ∧ c.removeVariable v = .ok c' ∧
        ((ls.forM (removeFromObject i v)).run w).state.heap[a]? = some c' := by
  induction ls generalizing w with
  | nil => exact .inl rfl
  | cons l ls ih =>
    rw [List.nodup_cons] at hn
    rcases removeFromObject_run (i := i) v l w with ⟨e, he⟩ | ⟨a₀, c, c', hg, hc, hr, he⟩
    · left
      rw [Py.run_forM_cons, he]
      rfl
    · have hst : ((l :: ls).forM (removeFromObject i v)).run w =
          (ls.forM (removeFromObject i v)).run { w with heap := w.heap.set a₀ c' } := by
        rw [Py.run_forM_cons, he]
      rw [hst]
      have hle := HeapLe.set hc (removeVariable_label hr)
      have hlt : a₀ < w.heap.length := (List.getElem?_eq_some_iff.mp hc).1
      rcases ih hn.2 { w with heap := w.heap.set a₀ c' } (hw.mono hle) with h | ⟨l', hl', hg', c₁, c₁', hc₁, hr₁, h⟩
      · rw [h]
        by_cases ha : a = a₀
        · subst ha
          right
          exact ⟨l, List.mem_cons_self, hg, c, c', hc, hr, List.getElem?_set_self hlt⟩
        · left
          exact List.getElem?_set_ne (Ne.symm ha)
      · right
        have hg'' : dget (w.refs i) l' = some a := hg'
        have hne : a₀ ≠ a := by
          intro he
          subst he
          have := hw.inj (dget_mem hg) (dget_mem hg'') rfl
          simp only [Prod.mk.injEq, and_true] at this
          exact hn.1 (this ▸ hl')
        refine ⟨l', List.mem_cons_of_mem _ hl', hg'', c₁, c₁', ?_, hr₁, h⟩
        rw [← hc₁]
        exact (List.getElem?_set_ne hne).symm

theorem deleteOn_heap (v : PVar) (hw : w.Ok) (hm : w.model i = some m) :
    ((deleteOn i v).run w).state.heap =
      (((dkeys (w.refs i)).forM (removeFromObject i v)).run
        (w.put i { m with deleted := sadd m.deleted v.label })).state.heap := by
  unfold deleteOn
  rw [Py.run_bind, onModel_run hm]
  show (Py.run (_ >>= _) (w.put i { m with deleted := sadd m.deleted v.label })).state.heap = _
  py_simp
  rw [put_refs]
  cases ((dkeys (w.refs i)).forM (removeFromObject i v)).run (w.put i { m with deleted := sadd m.deleted v.label }) with
  | error e w₁ => rfl
  | ok u w₁ => exact onModel_heap i _ w₁

/-- `delete_variable` on one model changes nothing of another model except constraint objects that both refer to, which they
have under the same label; from those it removes the variable. -/
theorem C91_delete {P : LModel → Op → Prop} (h : Lives env P w) (v : PVar) (hm : w.model i = some m) (hb : w.model j = some b)
    (hj : j ≠ i) : ∃ b', ((WOp.call i (.delete v)).step env w).model j = some b' ∧
      b' = { b with constraints := b'.constraints } ∧ dkeys b'.constraints = dkeys b.constraints ∧
      ∀ l c, dget b.constraints l = some c → dget b'.constraints l = some c ∨
        (dget m.constraints l = some c ∧ (∃ addr, (l, addr) ∈ w.refs i ∧ (l, addr) ∈ w.refs j) ∧
          ∃ c', c.removeVariable v = .ok c' ∧ dget b'.constraints l = some c') := by
  have hw := lives_ok h
  have hf := follows_delete v hw hm
  obtain ⟨hr, hmod⟩ := hf.others j hj
  rw [hb] at hmod
  refine ⟨_, hmod, rfl, ?_, ?_⟩
  · show dkeys (deref _ _) = _
    rw [dkeys_deref ((hw j).mono hf.heap), model_constraints hb, dkeys_deref (hw j)]
  · intro l c hl
    show dget (deref ((deleteOn i v).run w).state.heap (w.refs j)) l = _ ∨ _ ∧ _ ∧ ∃ c', _ ∧ dget (deref _ (w.refs j)) l = _
    rw [dget_deref ((hw j).mono hf.heap)]
    rw [model_constraints hb, dget_deref (hw j)] at hl
    obtain ⟨addr, hga, hca⟩ := Option.bind_eq_some_iff.mp hl
    rw [hga]
    simp only [Option.bind_some]
    rw [deleteOn_heap v hw hm]
    have hput : RefsOk (w.put i { m with deleted := sadd m.deleted v.label }).heap
        ((w.put i { m with deleted := sadd m.deleted v.label }).refs i) := by
      rw [put_refs]; exact hw i
    rcases removeLoop_heap v (dkeys (w.refs i)) (hw i).keys _ hput addr with heq | ⟨l', hl', hg', c₁, c₁', hc₁, hr₁, heq⟩
    · left
      exact heq.trans hca
    · right
      rw [put_refs] at hg'
      have hc₁' : w.heap[addr]? = some c₁ := hc₁
      rw [hca] at hc₁'
      injection hc₁' with hcc
      subst hcc
      have hll : l' = l := by
        obtain ⟨x, hx, hxl⟩ := (hw i).objects _ (dget_mem hg')
        obtain ⟨y, hy, hyl⟩ := (hw j).objects _ (dget_mem hga)
        simp only at hx hxl hy hyl
        rw [hca] at hx hy
        injection hx with hx
        injection hy with hy
        rw [← hxl, ← hyl, ← hx, ← hy]
      subst hll
      refine ⟨?_, ⟨addr, dget_mem hg', dget_mem hga⟩, c₁', hr₁, heq⟩
      rw [model_constraints hm, dget_deref (hw i), hg']
      exact hca

/-- So models without a common object do not disturb each other. -/
theorem C91_apart {P : LModel → Op → Prop} (h : Lives env P w) (o : Op) (hj : j ≠ i) (hs : ¬ w.Share i j) :
    ((WOp.call i o).step env w).model j = w.model j := by
  by_cases ho : ∃ v, o = .delete v
  · obtain ⟨v, rfl⟩ := ho
    have hw := lives_ok h
    cases hm : w.model i with
    | none => rw [call_none hm]
    | some m =>
      have hf := follows_delete v hw hm
      refine (hf.others j hj).2.trans ?_
      have hd : deref ((deleteOn i v).run w).state.heap (w.refs j) = deref w.heap (w.refs j) := by
        apply deref_congr
        intro p hp
        rw [deleteOn_heap v hw hm]
        have hput : RefsOk (w.put i { m with deleted := sadd m.deleted v.label }).heap
            ((w.put i { m with deleted := sadd m.deleted v.label }).refs i) := by
          rw [put_refs]; exact hw i
        rcases removeLoop_heap v (dkeys (w.refs i)) (hw i).keys _ hput p.2 with heq | ⟨l', hl', hg', _⟩
        · exact heq
        · rw [put_refs] at hg'
          exact absurd ⟨l', p.1, p.2, dget_mem hg', hp⟩ hs
      rw [hd]
      exact model_same.symm
  · exact C91_frame h (fun v hv => ho ⟨v, hv⟩) hj

/-- A call on a constraint object changes only models that refer to it. -/
theorem C91_edit {P : LModel → Op → Prop} (h : Lives env P w) (addr : Nat) (e : Edit)
    (hj : ∀ p ∈ w.refs j, p.2 ≠ addr) : ((WOp.edit addr e).step env w).model j = w.model j := by
  show World.model ((editObject addr e).run w).state j = _
  rcases editObject_run addr e w with ⟨err, hx⟩ | ⟨c, c', hc, he, hx⟩
  · rw [hx]; rfl
  · rw [hx]
    cases hm : w.model j with
    | none => exact heap_none hm
    | some n =>
      refine (heap_model hm).trans ?_
      have : deref (w.heap.set addr c') (w.refs j) = deref w.heap (w.refs j) :=
        deref_congr fun p hp => List.getElem?_set_ne (Ne.symm (hj p hp))
      show some ({ n with constraints := deref (w.heap.set addr c') (w.refs j) } : LModel) = _
      rw [this, ← model_constraints hm]

theorem onModel_refs {α : Type} (i k : Nat) (x : Py LModel α) (w : World) : ((onModel i x).run w).state.refs k = w.refs k := by
  unfold onModel
  simp only
  split
  · rfl
  · split
    · exact put_refs
    · exact put_refs

theorem removeFromObject_refs (i k : Nat) (v : PVar) (l : String) (w : World) :
    ((removeFromObject i v l).run w).state.refs k = w.refs k := by
  rcases removeFromObject_run (i := i) v l w with ⟨e, h⟩ | ⟨_, _, _, _, _, _, h⟩
  · rw [h]; rfl
  · rw [h]; rfl

theorem deleteOn_refs (i k : Nat) (v : PVar) (w : World) : ((deleteOn i v).run w).state.refs k = w.refs k := by
  have hon : ∀ {α : Type} (x : Py LModel α), Py.Preserves (fun w' : World => w'.refs k = w.refs k) (onModel i x) :=
    fun x w' hw' => (onModel_refs i k x w').trans hw'
  have : Py.Preserves (fun w' : World => w'.refs k = w.refs k) (deleteOn i v) := by
    unfold deleteOn
    refine Py.Preserves.bind (hon _) fun _ => ?_
    intro w₁ hw₁
    rw [Py.run_bind]
    exact (Py.Preserves.bind (Py.Preserves.forM fun l _ w' hw' => (removeFromObject_refs i k v l w').trans hw')
      fun _ => hon _) w₁ hw₁
  exact this w rfl

/-- Only `add_constraint` and `merge` make models share constraint objects. -/
theorem C91_sharing {op : WOp} (hop : ¬ op.Shares) (h : (op.step env w).Share i j) : w.Share i j := by
  have key : ∀ k, (op.step env w).refs k ⊆ w.refs k := by
    intro k
    cases op with
    | newModel mt id =>
      show World.refs { w with models := w.models ++ [⟨LModel.new mt id, []⟩] } k ⊆ _
      unfold World.refs
      simp only
      by_cases hk : k < w.models.length
      · rw [List.getElem?_append_left hk]
        exact List.Subset.refl _
      · rw [List.getElem?_append_right (Nat.le_of_not_lt hk)]
        cases k - w.models.length with
        | zero => exact List.nil_subset _
        | succ d => exact List.nil_subset _
    | newConstraint c => exact List.Subset.refl _
    | edit addr e =>
      show World.refs ((editObject addr e).run w).state k ⊆ _
      rcases editObject_run addr e w with ⟨err, hx⟩ | ⟨c, c', hc, he, hx⟩
      · rw [hx]; exact List.Subset.refl _
      · rw [hx]; exact List.Subset.refl _
    | register i a => exact absurd trivial hop
    | merge clk i j => exact absurd trivial hop
    | call i o =>
      cases o with
      | delete v =>
        have : ((WOp.call i (.delete v)).step env w).refs k = w.refs k := deleteOn_refs i k v w
        rw [this]
        exact List.Subset.refl _
      | removeConstraint l =>
        show World.refs ((unregisterConstraint i l).run w).state k ⊆ _
        unfold unregisterConstraint
        py_simp
        split
        · exact List.Subset.refl _
        · show (w.putRefs i (dpop (w.refs i) l)).refs k ⊆ _
          by_cases hk : k = i
          · subst hk
            cases hm : w.model k with
            | none =>
              have : (w.putRefs k (dpop (w.refs k) l)).model k = none := by
                unfold World.model at hm ⊢
                rw [Option.map_eq_none_iff] at hm ⊢
                unfold World.putRefs
                simp [List.getElem?_modify, hm]
              rw [refs_nil this]
              exact List.nil_subset _
            | some m =>
              rw [putRefs_refs hm]
              exact fun p hp => mem_of_dpop hp
          · rw [putRefs_refs_ne hk]
            exact List.Subset.refl _
      | addConstraint c => exact List.Subset.refl _
      | merge clk o => exact List.Subset.refl _
      | _ =>
        unfold WOp.step WOp.run
        simp only
        rw [onModel_refs]
        exact List.Subset.refl _
  obtain ⟨l, l', a, h1, h2⟩ := h
  exact ⟨l, l', a, key i h1, key j h2⟩

/-! ### Examples -/

/-- A model with a constraint on two variables, merged into another one. -/
def sharedOps : List WOp :=
  [.newModel .qubo "a", .newModel .qubo "b", .newConstraint (.nHot "c" 1 [Ex.b0, Ex.b1] 1), .register 1 0,
    .merge (fun _ => 0) 0 1]

def sharedWorld : World := sharedOps.foldl (WOp.step ⟨0, fun _ => ""⟩) ⟨[], []⟩

theorem lives_ops {P : LModel → Op → Prop} {ops : List WOp} (h : ∀ op ∈ ops, ∀ i o, op ≠ .call i o) {w : World}
    (hw : Lives env P w) : Lives env P (ops.foldl (WOp.step env) w) := by
  induction ops generalizing w with
  | nil => exact hw
  | cons op ops ih =>
    refine ih (fun o ho => h o (List.mem_cons_of_mem _ ho)) (.step w op hw ?_)
    cases op with
    | call i o => exact absurd rfl (h _ List.mem_cons_self i o)
    | _ => trivial

theorem shared_lives (P : LModel → Op → Prop) : Lives ⟨0, fun _ => ""⟩ P sharedWorld := by
  refine lives_ops ?_ .start
  intro op hop i o he
  subst he
  simp [sharedOps] at hop

/-- After `a.merge(b)` the call `a.delete_variable(v)` removes the variable from the constraint of `b` as well, while `b`
itself does not record the variable as deleted. -/
theorem C91_independent_refuted : ∃ w b b', Lives ⟨0, fun _ => ""⟩ AnyCall w ∧ w.model 1 = some b ∧
    ((WOp.call 0 (.delete Ex.b0)).step ⟨0, fun _ => ""⟩ w).model 1 = some b' ∧
    dget b.constraints "c" = some (.nHot "c" 1 [Ex.b0, Ex.b1] 1) ∧
    dget b'.constraints "c" = some (.nHot "c" 1 [Ex.b1] 1) ∧ b'.deleted = [] :=
  ⟨sharedWorld, _, _, shared_lives _, rfl, rfl, by decide +kernel, by decide +kernel, by decide +kernel⟩

example : sharedWorld.Share 0 1 := ⟨"c", "c", 0, by decide +kernel, by decide +kernel⟩

example : ∃ m, sharedWorld.model 0 = some m ∧ Made ⟨0, fun _ => ""⟩ AnyCall m ∧ m.constraints ≠ [] :=
  ⟨_, rfl, C91_made lax_any (shared_lives _) (i := 0) rfl, by decide +kernel⟩

example : ∃ m, sharedWorld.model 0 = some m ∧ (Op.delete Ex.b0).Single ∧
    ((Op.call ⟨0, fun _ => ""⟩ (.delete Ex.b0)).run m).isOk = true := ⟨_, rfl, trivial, by decide +kernel⟩

/-- A third model without the constraint. -/
example : let w := (sharedOps ++ [WOp.newModel .qubo "d"]).foldl (WOp.step ⟨0, fun _ => ""⟩) ⟨[], []⟩
    ¬ w.Share 0 2 ∧ w.Share 0 1 ∧ w.model 2 ≠ none := by
  refine ⟨?_, ⟨"c", "c", 0, by decide +kernel, by decide +kernel⟩, by decide +kernel⟩
  rintro ⟨l, l', a, _, h⟩
  have : ((sharedOps ++ [WOp.newModel .qubo "d"]).foldl (WOp.step ⟨0, fun _ => ""⟩) ⟨[], []⟩).refs 2 = [] := by
    decide +kernel
  rw [this] at h
  cases h

end Sawatabi.Props
