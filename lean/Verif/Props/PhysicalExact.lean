import Verif.Props.PhysicalSuccess
import Verif.Props.PhysicalState

/-!
# `to_physical` on every rectangular table with distinct names (C20, C22)

Here no label is excluded and removed interactions may have any names.
-/

namespace Sawatabi.Props

variable {m m' : LModel} {env : Env} {clks : Nat → Nat → ℚ} {ids : Nat → String} {ph : List (String × ℚ)} {p : Physical}

/-- The name an interaction has when tables with the names `bs` have been merged into its model, one after the other: each
that has the name puts the id of the model behind it. -/
def renamed (id : String) (bs : List (List String)) (n : String) : String :=
  bs.foldl (fun n ns => if n ∈ ns then n ++ " (" ++ id ++ ")" else n) n

theorem mergedRows_renamed {a b : LModel} (ha : a.length = a.rows.length) {i : Nat} {r : Row} (h : a.rows[i]? = some r) :
    ((mergedRows a b)[i]?).map (·.name) = some (renamed a.id [b.names] r.name) := by
  unfold mergedRows
  have hi : i < a.rows.length := (List.getElem?_eq_some_iff.mp h).1
  rw [List.getElem?_map, List.getElem?_zipIdx, List.getElem?_append_left hi, h]
  have h1 : a.hasName r.name = true := (hasName_iff a r.name).mpr (List.mem_map_of_mem (List.mem_of_getElem? h))
  have h2 : b.hasName r.name = true ↔ r.name ∈ b.names := hasName_iff b r.name
  have h3 : ((0 + i : Nat) : Int) < a.length := by rw [ha]; omega
  by_cases hb : r.name ∈ b.names
  · have h4 := h2.mpr hb
    simp only [Option.map_some, renamed, List.foldl_cons, List.foldl_nil, if_pos hb, dupName, h1, h4, Bool.and_self, if_true,
      if_pos h3]
  · have h4 : b.hasName r.name = false := by
      rw [Bool.eq_false_iff]
      exact fun h => hb (h2.mp h)
    simp only [Option.map_some, renamed, List.foldl_cons, List.foldl_nil, if_neg hb, dupName, h1, h4, Bool.and_false,
      Bool.false_eq_true, if_false]

/-- The loop over the constraints, with the names of the interactions. -/
theorem constraintLoop_renamed (cs : List ((String × Constraint) × Nat)) {a a₁ : LModel} (ha : a.Rect)
    (h : (cs.forM (mergeConstraint env clks ids)).run a = .ok ⟨⟩ a₁) :
    ∃ bs : List LModel,
      List.Forall₂ (fun p b => ConstraintModel env (clks p.2) (ids p.2) p.1.2 a.mtype b ∧ Bare b) cs bs ∧
      Absorbed a bs a₁ ∧ ∀ (i : Nat) r, a.rows[i]? = some r →
        (a₁.rows[i]?).map (·.name) = some (renamed a.id (bs.map (·.names)) r.name) := by
  induction cs generalizing a with
  | nil =>
    cases h
    exact ⟨[], .nil, .refl _, fun i r hr => by rw [hr]; rfl⟩
  | cons p cs ih =>
    have hrect := mergeConstraint_rect env clks ids p a ha
    rw [Py.run_forM_cons] at h
    cases hstep : (mergeConstraint env clks ids p).run a with
    | error e t => rw [hstep] at h; cases h
    | ok u t =>
      rw [hstep] at h hrect
      simp only [Res.state] at h hrect
      rw [mergeConstraint_run] at hstep
      cases hc : p.1.2.toModel (clks p.2 0) (ids p.2) with
      | error e => rw [hc] at hstep; cases hstep
      | ok cm =>
        rw [hc] at hstep
        simp only at hstep
        cases hm : (merge env (clks p.2)).run (a, cm) with
        | error e t => rw [hm] at hstep; cases hstep
        | ok u t' =>
          rw [hm] at hstep
          simp only [Res.ok.injEq, true_and] at hstep
          subst hstep
          have hb : ∃ b, ConstraintModel env (clks p.2) (ids p.2) p.1.2 a.mtype b ∧ Bare b ∧ mergeSame.run (a, b) = .ok ⟨⟩ t' := by
            have hq : cm.mtype = .qubo := by
              obtain ⟨_, rfl⟩ := Constraint.toModel_ok hc
              rfl
            have hbare := toModel_bare hc
            rw [merge_run] at hm
            by_cases ht : a.mtype = cm.mtype
            · rw [if_pos ht] at hm
              refine ⟨cm, ?_, hbare, hm⟩
              rw [ht, hq]
              exact .qubo hc
            · rw [if_neg ht] at hm
              have hi : a.mtype = .ising := by
                cases ha : a.mtype
                · rfl
                · rw [ha, hq] at ht; exact absurd rfl ht
              have h1 := convertMtype_bare hbare env (clks p.2)
              rw [convertMtype_run, hq] at hm h1
              simp only at hm h1
              cases hr : (toIsing env (clks p.2)).run cm with
              | error e b₁ => rw [hr] at hm; cases hm
              | ok u b₁ =>
                rw [hr] at hm h1
                refine ⟨b₁, ?_, h1, hm⟩
                rw [hi]
                exact .ising hc hr
          obtain ⟨b, hb, hbare, hsame⟩ := hb
          have habs := mergeSame_absorbed hbare hsame
          obtain ⟨bs, hbs, habs', hren⟩ := ih hrect h
          have ht : t'.1.mtype = a.mtype := by rw [habs.same]
          have hid : t'.1.id = a.id := by rw [habs.same]
          rw [ht] at hbs
          refine ⟨b :: bs, .cons ⟨hb, hbare⟩ hbs, habs.cons habs', fun i r hr => ?_⟩
          have hrow : (t'.1.rows[i]?).map (·.name) = some (renamed a.id [b.names] r.name) := by
            rw [mergeSame_bare_run hbare] at hsame
            split at hsame
            · cases hsame
            · cases hsame
              exact mergedRows_renamed ha.len hr
          cases hx : t'.1.rows[i]? with
          | none => rw [hx] at hrow; cases hrow
          | some x =>
            rw [hx] at hrow
            simp only [Option.map_some, Option.some.injEq] at hrow
            rw [hren i x hx, hrow, hid]
            rfl

/-- The names of the interactions marked as removed, after the loop. -/
theorem Absorbed.removed_renamed {a a₁ : LModel} {bs : List LModel} (h : Absorbed a bs a₁)
    (hb : ∀ b ∈ bs, ∀ r ∈ b.rows, r.removed = false)
    (hren : ∀ (i : Nat) r, a.rows[i]? = some r → (a₁.rows[i]?).map (·.name) = some (renamed a.id (bs.map (·.names)) r.name)) :
    (a₁.rows.filter (·.removed)).map (·.name) =
      (a.rows.filter (·.removed)).map fun r => renamed a.id (bs.map (·.names)) r.name := by
  obtain ⟨xs, ys, h1, h2, h3, h4⟩ := h.split
  rw [h1] at hren ⊢
  rw [List.filter_append]
  have hy : ys.filter (·.removed) = [] := by
    rw [List.filter_eq_nil_iff]
    intro y hy
    have : y.anon ∈ (bs.flatMap (·.rows)).map Row.anon := by rw [← h4]; exact List.mem_map_of_mem hy
    obtain ⟨r, hr, hre⟩ := List.mem_map.mp this
    obtain ⟨b, hbb, hrb⟩ := List.mem_flatMap.mp hr
    have h5 : y.removed = r.removed := (congrArg Row.removed hre).symm
    rw [h5, hb b hbb r hrb]
    simp
  rw [hy, List.append_nil]
  have hget : ∀ (i : Nat) r, a.rows[i]? = some r → (xs[i]?).map (·.name) = some (renamed a.id (bs.map (·.names)) r.name) := by
    intro i r hr
    have := hren i r hr
    rwa [List.getElem?_append_left (by rw [h2]; exact (List.getElem?_eq_some_iff.mp hr).1)] at this
  generalize renamed a.id (bs.map (·.names)) = f at hget ⊢
  generalize a.rows = rs at h2 h3 hget ⊢
  clear h hy h4 hb h1 hren ys
  induction xs generalizing rs with
  | nil =>
    cases rs with
    | nil => rfl
    | cons r rs => cases h2
  | cons x xs ih =>
    cases rs with
    | nil => cases h2
    | cons r rs =>
      simp only [List.map_cons, List.cons.injEq] at h3
      have hrm : x.removed = r.removed := by
        have : x.anon.removed = r.anon.removed := by rw [h3.1]
        exact this
      have := ih rs (by simpa using h2) h3.2 (fun i r' hr' => by simpa using hget (i + 1) r' (by simpa using hr'))
      have h0 := hget 0 r rfl
      simp only [List.getElem?_cons_zero, Option.map_some, Option.some.injEq] at h0
      rw [List.filter_cons, List.filter_cons, hrm]
      by_cases hr : r.removed = true
      · simp only [hr, if_true, List.map_cons, this, h0]
      · simp [hr, this]

/-- Popping names from a table succeeds exactly if they are different names of the table. -/
theorem popRows_iff (hm : m.Rect) (hn : m.names.Nodup) (ns : List String) :
    (∃ t, (ns.forM popRow).run m = .ok ⟨⟩ t) ↔ ns.Nodup ∧ ∀ n ∈ ns, n ∈ m.names := by
  constructor
  · rintro ⟨t, h⟩
    induction ns generalizing m with
    | nil => exact ⟨List.nodup_nil, fun n hn => by cases hn⟩
    | cons n ns ih =>
      rw [Py.run_forM_cons] at h
      by_cases hmem : n ∈ m.names
      · rw [popRow_prune hm hn hmem] at h
        simp only at h
        obtain ⟨h1, h2⟩ := ih (prune_rect hm _) (prune_names hn _) h
        have hsub : ∀ k ∈ ns, k ∈ m.names ∧ k ≠ n := by
          intro k hk
          obtain ⟨r, hr, rfl⟩ := List.mem_map.mp (h2 k hk)
          obtain ⟨h3, h4⟩ := List.mem_filter.mp hr
          exact ⟨List.mem_map_of_mem h3, by simpa using h4⟩
        refine ⟨List.nodup_cons.mpr ⟨fun hk => (hsub n hk).2 rfl, h1⟩, fun k hk => ?_⟩
        rcases List.mem_cons.mp hk with rfl | hk
        · exact hmem
        · exact (hsub k hk).1
      · cases hp : (popRow n).run m with
        | error e u => rw [hp] at h; cases h
        | ok v u =>
          exfalso
          unfold popRow at hp
          rw [Py.run_bind, Py.run_get] at hp
          simp only [Py.run_bind, Py.run_liftE] at hp
          cases hi : m.indexOf n with
          | error e => rw [hi] at hp; cases hp
          | ok i =>
            obtain ⟨hlt, hnm⟩ := indexOf_ok hi
            exact hmem (by rw [← hnm]; exact List.mem_map_of_mem (List.getElem_mem hlt))
  · rintro ⟨h1, h2⟩
    exact ⟨_, popRows_prune hm hn ns h1 h2⟩

/-- The loop succeeds if all constraints have models. -/
theorem constraintLoop_of_models {cs : List ((String × Constraint) × Nat)} {bs : List LModel} {a : LModel} (ha : a.Rect)
    (h : List.Forall₂ (fun p b => ConstraintModel env (clks p.2) (ids p.2) p.1.2 a.mtype b) cs bs) :
    ∃ a₁, (cs.forM (mergeConstraint env clks ids)).run a = .ok ⟨⟩ a₁ := by
  induction cs generalizing a bs with
  | nil => exact ⟨a, rfl⟩
  | cons p cs ih =>
    cases h with
    | @cons _ b _ bs hb hbs =>
      have hstep : ∃ t, (mergeConstraint env clks ids p).run a = .ok ⟨⟩ t ∧ t.mtype = a.mtype := by
        rw [mergeConstraint_run]
        generalize ht : a.mtype = mt at hb
        cases hb with
        | qubo hcm =>
          have hb := toModel_bare hcm
          have hq : b.mtype = .qubo ∧ b.Rect := by
            obtain ⟨_, rfl⟩ := Constraint.toModel_ok hcm
            exact ⟨rfl, plain_rect _ _ _⟩
          obtain ⟨cols, hcols⟩ := mergedCols_ok ha hq.2
          rw [hcm]
          simp only
          rw [merge_run, if_pos (by rw [ht, hq.1]), mergeSame_bare_run hb, hcols]
          exact ⟨_, rfl, ht⟩
        | @ising cm _ hcm hconv =>
          have hb := toModel_bare hcm
          have hq : cm.mtype = .qubo ∧ cm.Rect := by
            obtain ⟨_, rfl⟩ := Constraint.toModel_ok hcm
            exact ⟨rfl, plain_rect _ _ _⟩
          have hbb := convertMtype_bare hb env (clks p.2)
          have hbr := toIsing_rect env (clks p.2) _ hq.2
          rw [convertMtype_run, hq.1] at hbb
          simp only at hbb
          rw [hconv] at hbb hbr
          obtain ⟨cols, hcols⟩ := mergedCols_ok (b := b) ha hbr
          rw [hcm]
          simp only
          rw [merge_run, if_neg (by rw [ht, hq.1]; simp), convertMtype_run, hq.1]
          simp only
          rw [hconv]
          simp only
          rw [mergeSame_bare_run (b := b) hbb, hcols]
          exact ⟨_, rfl, ht⟩
      obtain ⟨t, ht, htq⟩ := hstep
      have htr := mergeConstraint_rect env clks ids p a ha
      rw [ht] at htr
      rw [Py.run_forM_cons, ht]
      exact ih htr (by rw [htq]; exact hbs)

/-- The models of constraints are determined. -/
theorem constraintModel_unique {clk : Nat → ℚ} {id : String} {c : Constraint} {mt : MType} {b b' : LModel}
    (h : ConstraintModel env clk id c mt b) (h' : ConstraintModel env clk id c mt b') : b = b' := by
  cases h with
  | qubo h =>
    cases h' with
    | qubo h' => rw [h] at h'; cases h'; rfl
  | ising h hc =>
    cases h' with
    | ising h' hc' =>
      rw [h] at h'
      cases h'
      rw [hc] at hc'
      cases hc'
      rfl

theorem forall₂_unique {α β : Type} {R S : α → β → Prop} (hR : ∀ a b b', R a b → S a b' → b = b') {as : List α} {bs bs' : List β}
    (h : List.Forall₂ R as bs) (h' : List.Forall₂ S as bs') : bs = bs' := by
  have := forall₂_map_eq (f := id) (fun a b b' h1 h2 => hR a b b' h1 h2) h h'
  simpa using this

/-- `to_physical` succeeds exactly if each constraint has a model of the type of the receiver, all placeholders of active
interactions and the offset are given, and the removed interactions, under the names they have after the merges of those
models, are different interactions of the model. Then it drops the interactions with these names, and marks the others as
clean. -/
theorem C22_exact (hm : m.Rect) (hu : m.names.Nodup) :
    (∃ p, (toPhysical env clks ids ph).run m = .ok p m') ↔
      ∃ bs : List LModel, List.Forall₂ (fun p b => ConstraintModel env (clks p.2) (ids p.2) p.1.2 m.mtype b)
          m.constraints.zipIdx bs ∧ m.Filled ph ∧
        let ns := (m.rows.filter (·.removed)).map fun r => renamed m.id (bs.map (·.names)) r.name
        ns.Nodup ∧ (∀ n ∈ ns, n ∈ m.names) ∧ m' = markClean (m.prune fun r => !ns.contains r.name) := by
  constructor
  · rintro ⟨p, h⟩
    have hf := filled_of_ok hm h
    obtain ⟨bs, m₁, g, off, m₂, h⟩ := toPhysical_ok h
    obtain ⟨bs', hbs', habs', hren⟩ := constraintLoop_renamed _ hm h.loop
    obtain rfl : bs = bs' := forall₂_unique (fun a b b' h1 h2 => constraintModel_unique h1.1 h2.1) h.models hbs'
    refine ⟨bs, h.models.imp fun _ _ h => h.1, hf, ?_⟩
    have hg := h.group
    rw [group_ok (g := g) (h.rect hm).len] at hg
    have hw := groupFold_removed _ _ _ hg
    rw [List.nil_append, Absorbed.removed_renamed h.absorbed h.bs_active hren] at hw
    have hrem := h.removal
    rw [hw] at hrem
    obtain ⟨h1, h2⟩ := (popRows_iff hm hu _).mp ⟨m₂, hrem⟩
    refine ⟨h1, h2, ?_⟩
    rw [popRows_prune hm hu _ h1 h2] at hrem
    rw [h.final]
    cases hrem
    rfl
  · rintro ⟨bs, hbs, hf, h1, h2, rfl⟩
    obtain ⟨m₁, hloop⟩ := constraintLoop_of_models hm hbs
    obtain ⟨bs', hbs', habs, hren⟩ := constraintLoop_renamed _ hm hloop
    obtain rfl : bs = bs' := forall₂_unique (fun a b b' h1 h2 => constraintModel_unique h1 h2.1) hbs hbs'
    have hget : ∀ b ∈ bs, ∃ clk id c, ConstraintModel env clk id c m.mtype b := by
      intro b hb
      obtain ⟨i, hi, rfl⟩ := List.getElem_of_mem hb
      have := hbs.get (i := i) (by have := hbs.length_eq; omega) hi
      exact ⟨_, _, _, this⟩
    have hact : ∀ b ∈ bs, ∀ r ∈ b.rows, r.removed = false := by
      intro b hb
      obtain ⟨_, _, _, h⟩ := hget b hb
      exact h.active
    obtain ⟨g, off, hg, ho⟩ := grouped_of_loop hm hloop habs (fun b hb => by
      obtain ⟨_, _, _, h⟩ := hget b hb
      exact constraintModel_numeric h) hf
    have hgf := hg
    rw [group_ok (g := g) (constraintLoop_rect hm hloop).len] at hgf
    have hw := groupFold_removed _ _ _ hgf
    rw [List.nil_append, Absorbed.removed_renamed habs hact hren] at hw
    refine ⟨buildPhysical m₁ g off, ?_⟩
    rw [toPhysical_run, hloop]
    simp only [hg, ho]
    rw [habs.restored, hw, popRows_prune hm hu _ h1 h2]

/-- The rows that a success leaves. -/
theorem prune_rows (m : LModel) (P : Row → Bool) :
    (markClean (m.prune P)).rows = (m.rows.filter P).map fun r => { r with dirty := false } := by
  simp only [markClean, LModel.prune, Int.toNat_natCast, List.take_length, List.drop_length, List.append_nil]

theorem renamed_length (id : String) (bs : List (List String)) (n : String) :
    n.length ≤ (renamed id bs n).length ∧ ((renamed id bs n).length = n.length → ∀ ns ∈ bs, n ∉ ns) := by
  induction bs generalizing n with
  | nil => exact ⟨Nat.le_refl _, fun _ ns h => by cases h⟩
  | cons b bs ih =>
    have hstep : renamed id (b :: bs) n = renamed id bs (if n ∈ b then n ++ " (" ++ id ++ ")" else n) := rfl
    rw [hstep]
    by_cases hb : n ∈ b
    · rw [if_pos hb]
      obtain ⟨h1, _⟩ := ih (n ++ " (" ++ id ++ ")")
      have hl : (n ++ " (" ++ id ++ ")").length = n.length + id.length + 3 := by
        simp only [String.length_append]
        have e1 : (" (" : String).length = 2 := by decide
        have e2 : (")" : String).length = 1 := by decide
        omega
      exact ⟨by omega, fun h => by omega⟩
    · rw [if_neg hb]
      obtain ⟨h1, h2⟩ := ih n
      refine ⟨h1, fun h ns hns => ?_⟩
      rcases List.mem_cons.mp hns with rfl | hns
      · exact hb
      · exact h2 h ns hns

theorem renamed_eq {id : String} {bs : List (List String)} {n : String} (h : ∀ ns ∈ bs, n ∉ ns) : renamed id bs n = n := by
  induction bs with
  | nil => rfl
  | cons b bs ih =>
    have hstep : renamed id (b :: bs) n = renamed id bs (if n ∈ b then n ++ " (" ++ id ++ ")" else n) := rfl
    rw [hstep, if_neg (h b (by simp))]
    exact ih fun ns hns => h ns (by simp [hns])

theorem sum_le_fixed {α : Type} {f g : α → Nat} {l : List α} (hle : ∀ x ∈ l, f x ≤ g x) (h : (l.map f).sum = (l.map g).sum) :
    ∀ x ∈ l, f x = g x := by
  induction l with
  | nil => intro x hx; cases hx
  | cons a l ih =>
    have hrest : (l.map f).sum ≤ (l.map g).sum := by
      clear ih h
      induction l with
      | nil => simp
      | cons b l ih =>
        simp only [List.map_cons, List.sum_cons]
        have := ih fun x hx => hle x (by
          rcases List.mem_cons.mp hx with rfl | hx
          · simp
          · simp [hx])
        have := hle b (by simp)
        omega
    simp only [List.map_cons, List.sum_cons] at h
    have ha := hle a (by simp)
    intro x hx
    rcases List.mem_cons.mp hx with rfl | hx
    · omega
    · exact ih (fun x hx => hle x (by simp [hx])) (by omega) x hx

/-- A success drops exactly the removed interactions if and only if the models of the constraints do not use their
names. -/
theorem C22_only_prunes_iff (hm : m.Rect) (hu : m.names.Nodup) (h : (toPhysical env clks ids ph).run m = .ok p m')
    {bs : List LModel} (hbs : List.Forall₂ (fun p b => ConstraintModel env (clks p.2) (ids p.2) p.1.2 m.mtype b)
      m.constraints.zipIdx bs) :
    m' = m.cleaned ↔ ∀ r ∈ m.rows, r.removed = true → ∀ b ∈ bs, r.name ∉ b.names := by
  obtain ⟨bs', hbs', _, h1, h2, rfl⟩ := (C22_exact hm hu).mp ⟨p, h⟩
  obtain rfl : bs = bs' := forall₂_unique
    (R := fun (p : (String × Constraint) × Nat) b => ConstraintModel env (clks p.2) (ids p.2) p.1.2 m.mtype b)
    (S := fun (p : (String × Constraint) × Nat) b => ConstraintModel env (clks p.2) (ids p.2) p.1.2 m.mtype b)
    (fun a b b' h1 h2 => constraintModel_unique h1 h2) hbs hbs'
  constructor
  · intro he
    have hrows : m.rows.filter (fun r => !((m.rows.filter (·.removed)).map fun r => renamed m.id (bs.map (·.names)) r.name).contains r.name) =
        m.rows.filter (!·.removed) := by
      have hx := congrArg (fun t : LModel => t.rows.map (·.name)) he
      simp only [prune_rows, LModel.cleaned, List.map_map] at hx
      have hinj : ∀ (P Q : Row → Bool), (m.rows.filter P).map (·.name) = (m.rows.filter Q).map (·.name) →
          m.rows.filter P = m.rows.filter Q := by
        intro P Q hPQ
        apply List.filter_congr
        intro r hr
        rw [Bool.eq_iff_iff]
        have hiff : ∀ (P : Row → Bool), P r = true ↔ r.name ∈ (m.rows.filter P).map (·.name) := by
          intro P
          constructor
          · exact fun h => List.mem_map_of_mem (List.mem_filter.mpr ⟨hr, h⟩)
          · intro h
            obtain ⟨r', hr', he⟩ := List.mem_map.mp h
            obtain ⟨h3, h4⟩ := List.mem_filter.mp hr'
            rw [← List.inj_on_of_nodup_map hu h3 hr he]
            exact h4
        rw [hiff P, hiff Q, hPQ]
      exact hinj _ _ hx
    have hiff : ∀ r ∈ m.rows, r.name ∈ ((m.rows.filter (·.removed)).map fun r => renamed m.id (bs.map (·.names)) r.name) ↔
        r.removed = true := by
      intro r hr
      have : (r ∈ m.rows.filter (fun r => !((m.rows.filter (·.removed)).map fun r => renamed m.id (bs.map (·.names)) r.name).contains r.name)) ↔
          r ∈ m.rows.filter (!·.removed) := by rw [hrows]
      simp only [List.mem_filter, hr, true_and, Bool.not_eq_true', List.contains_iff_mem, ← Bool.not_eq_true] at this
      exact not_iff_not.mp this
    have hperm : ((m.rows.filter (·.removed)).map fun r => renamed m.id (bs.map (·.names)) r.name).Perm
        ((m.rows.filter (·.removed)).map (·.name)) := by
      rw [List.perm_ext_iff_of_nodup h1 ((List.filter_sublist.map _).nodup hu)]
      intro n
      constructor
      · intro hn
        obtain ⟨r, hr, rfl⟩ := List.mem_map.mp (h2 n hn)
        exact List.mem_map_of_mem (List.mem_filter.mpr ⟨hr, (hiff r hr).mp hn⟩)
      · intro hn
        obtain ⟨r, hr, rfl⟩ := List.mem_map.mp hn
        obtain ⟨h3, h4⟩ := List.mem_filter.mp hr
        exact (hiff r h3).mpr h4
    have hsum := (hperm.map String.length).sum_eq
    rw [List.map_map, List.map_map] at hsum
    clear hrows hiff hperm
    have hlen := renamed_length m.id (bs.map (·.names))
    have hfix := sum_le_fixed (l := m.rows.filter (·.removed)) (f := fun r : Row => r.name.length)
      (g := fun r : Row => (renamed m.id (bs.map LModel.names) r.name).length) (fun r _ => (hlen r.name).1) hsum.symm
    intro r hr hrm b hb
    exact (hlen r.name).2 (hfix r (List.mem_filter.mpr ⟨hr, hrm⟩)).symm b.names (List.mem_map_of_mem hb)
  · intro hc
    refine cleaned_eq hu ?_
    apply List.map_congr_left
    intro r hr
    obtain ⟨h3, h4⟩ := List.mem_filter.mp hr
    apply renamed_eq
    intro ns hns
    obtain ⟨b, hb, rfl⟩ := List.mem_map.mp hns
    exact hc r h3 h4 b hb

/-- The same for QUBO models, in terms of the interactions of the constraints. No label is excluded. -/
theorem C20_success_exact (hm : m.Rect) (hu : m.names.Nodup) (hq : m.mtype = .qubo) :
    (∃ p m', (toPhysical env clks ids ph).run m = .ok p m') ↔ (∀ c ∈ m.constraints, c.2.Good) ∧ m.Filled ph ∧
      let ns := (m.rows.filter (·.removed)).map fun r =>
        renamed m.id (m.constraints.map fun c => c.2.items.map (·.name c.2.label)) r.name
      ns.Nodup ∧ ∀ n ∈ ns, n ∈ m.names := by
  have hnames : ∀ (cs : List ((String × Constraint) × Nat)) (bs : List LModel),
      List.Forall₂ (fun p b => ConstraintModel env (clks p.2) (ids p.2) p.1.2 .qubo b) cs bs →
      (∀ p ∈ cs, p.1.2.Good) ∧ bs.map (·.names) = cs.map fun p => p.1.2.items.map (·.name p.1.2.label) := by
    intro cs bs h
    induction h with
    | nil => exact ⟨(fun p h => by cases h), rfl⟩
    | @cons p b cs bs hb _ ih =>
      obtain ⟨h1, h2⟩ := ih
      cases hb with
      | qubo hb =>
        obtain ⟨hg, rfl⟩ := Constraint.toModel_ok hb
        refine ⟨fun q hq => ?_, ?_⟩
        · rcases List.mem_cons.mp hq with rfl | hq
          · exact hg
          · exact h1 q hq
        · rw [List.map_cons, List.map_cons, h2]
          congr 1
          simp only [plain, LModel.names, List.map_map]
          rfl
  have hex : ∀ (cs : List ((String × Constraint) × Nat)), (∀ p ∈ cs, p.1.2.Good) →
      ∃ bs, List.Forall₂ (fun p b => ConstraintModel env (clks p.2) (ids p.2) p.1.2 .qubo b) cs bs := by
    intro cs
    induction cs with
    | nil => exact fun _ => ⟨[], .nil⟩
    | cons p cs ih =>
      intro hg
      obtain ⟨bs, hbs⟩ := ih fun q hq => hg q (by simp [hq])
      exact ⟨_ :: bs, .cons (.qubo ((Constraint.toModel_run (clks p.2 0) (ids p.2) p.1.2).1 (hg p (by simp)))) hbs⟩
  have hzip : m.constraints.zipIdx.map (fun p => p.1.2.items.map (·.name p.1.2.label)) =
      m.constraints.map fun c => c.2.items.map (·.name c.2.label) := by
    rw [← List.zipIdx_map_fst 0 m.constraints, List.map_map]
    simp only [List.zipIdx_map_fst]
    rfl
  constructor
  · rintro ⟨p, m', h⟩
    obtain ⟨bs, hbs, hf, h1, h2, _⟩ := (C22_exact hm hu).mp ⟨p, h⟩
    rw [hq] at hbs
    obtain ⟨hg, hn⟩ := hnames _ _ hbs
    rw [hn, hzip] at h1 h2
    refine ⟨fun c hc => ?_, hf, h1, h2⟩
    obtain ⟨i, hi, rfl⟩ := List.getElem_of_mem hc
    exact hg (m.constraints[i], i) (by
      rw [List.mem_zipIdx_iff_getElem?]
      simp [hi])
  · rintro ⟨hg, hf, h1, h2⟩
    obtain ⟨bs, hbs⟩ := hex m.constraints.zipIdx (by
      rintro ⟨c, i⟩ hp
      exact hg c (List.fst_mem_of_mem_zipIdx hp))
    obtain ⟨_, hn⟩ := hnames _ _ hbs
    obtain ⟨p, h⟩ := (C22_exact (env := env) (clks := clks) (ids := ids) (ph := ph) hm hu).mpr
      ⟨bs, by rw [hq]; exact hbs, hf, by rw [hn, hzip]; exact h1, by rw [hn, hzip]; exact h2, rfl⟩
    exact ⟨p, _, h⟩

/-- A model whose removed interaction has the name of an interaction of a constraint: the conversion still succeeds, since
there is an interaction with the new name, too. -/
example : clashing.Rect ∧ clashing.names.Nodup ∧ ¬clashing.NoClash ∧ clashing.mtype = .qubo ∧
    (∃ p m', (toPhysical ⟨0, fun _ => "t"⟩ (fun _ _ => 0) (fun _ => "1") []).run clashing = .ok p m') ∧
    renamed clashing.id (clashing.constraints.map fun c => c.2.items.map (·.name c.2.label)) "x[0] (c)" ≠ "x[0] (c)" := by
  refine ⟨C22_clash_refuted.1, C22_clash_refuted.2.1, ?_, by decide, ?_, by decide +kernel⟩
  · unfold LModel.NoClash; decide
  · obtain ⟨p, m', h, _⟩ := C22_clash_refuted.2.2
    exact ⟨p, m', h⟩

end Sawatabi.Props
