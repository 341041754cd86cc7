import Verif.Lemmas.ColumnsConvert
import Verif.Lemmas.Prune

/-!
# The row model and the column model behave alike: merge, constraints, physical model, histories
-/

namespace Sawatabi

theorem Sim.onFst {σ τ ρ α β : Type} {f : σ → τ} {g : α → β} {x : Py τ β} {y : Py σ α} (h : Sim f g x y) :
    Sim (Prod.map f (id : ρ → ρ)) g (Sawatabi.onFst x) (Sawatabi.onFst y) := by
  rintro ⟨a, b⟩
  show (match x.run (f a) with | .ok v t => _ | .error e t => _) = _
  rw [h a]
  show _ = Res.both _ _ (match y.run a with | .ok v t => _ | .error e t => _)
  cases y.run a <;> rfl

theorem Sim.onFst' {σ τ ρ κ α β : Type} {f : σ → τ} {k : ρ → κ} {g : α → β} {x : Py τ β} {y : Py σ α} (h : Sim f g x y) :
    Sim (Prod.map f k) g (Sawatabi.onFst x) (Sawatabi.onFst y) := by
  rintro ⟨a, b⟩
  show (match x.run (f a) with | .ok v t => _ | .error e t => _) = _
  rw [h a]
  show _ = Res.both _ _ (match y.run a with | .ok v t => _ | .error e t => _)
  cases y.run a <;> rfl

theorem Sim.onSnd' {σ τ ρ κ α β : Type} {f : σ → τ} {k : ρ → κ} {g : α → β} {x : Py τ β} {y : Py σ α} (h : Sim f g x y) :
    Sim (Prod.map k f) g (Sawatabi.onSnd x) (Sawatabi.onSnd y) := by
  rintro ⟨b, a⟩
  show (match x.run (f a) with | .ok v t => _ | .error e t => _) = _
  rw [h a]
  show _ = Res.both _ _ (match y.run a with | .ok v t => _ | .error e t => _)
  cases y.run a <;> rfl

theorem Sim.withSnd {σ τ ρ κ : Type} {f : σ → τ} {k : ρ → κ} {x : Py (τ × κ) Unit} {y : Py (σ × ρ) Unit}
    (h : Sim (Prod.map f k) id x y) (t : ρ) : Sim f id (Sawatabi.withSnd (k t) x) (Sawatabi.withSnd t y) := by
  intro s
  show (match x.run (Prod.map f k (s, t)) with | .ok v t => _ | .error e t => _) = _
  rw [h (s, t)]
  show _ = Res.both _ _ (match y.run (s, t) with | .ok v t => _ | .error e t => _)
  cases y.run (s, t) <;> rfl

namespace Col

/-! ## `merge` -/

/-- Both models of a pair. -/
abbrev ofPair : LModel × LModel → CModel × CModel := Prod.map ofModel ofModel

theorem mergedCols_eq (a b : LModel) : mergedCols (ofModel a) (ofModel b) = ofRows (mergedRows a b) := by
  have hn : mergedNames (ofModel a) (ofModel b) = (mergedRows a b).map (·.name) := by
    unfold mergedNames mergedRows
    rw [List.map_map]
    show ((a.rows.map (·.name) ++ b.rows.map (·.name)).zipIdx).map _ = _
    rw [← List.map_append, List.zipIdx_map, List.map_map]
    apply List.map_congr_left
    rintro ⟨r, i⟩ _
    have h1 : (ofModel a).cols.hasName r.name = a.hasName r.name := hasName_eq a r.name
    have h2 : (ofModel b).cols.hasName r.name = b.hasName r.name := hasName_eq b r.name
    show (if (ofModel a).cols.hasName r.name && (ofModel b).cols.hasName r.name then _ else r.name) =
      (if dupName a b r.name then _ else r : Row).name
    unfold dupName
    rw [h1, h2]
    by_cases h : (a.hasName r.name && b.hasName r.name) = true
    · rw [if_pos h, if_pos h]; rfl
    · rw [if_neg h, if_neg h]
  have hr : ∀ {β : Type} (F : Row → β) (hF : ∀ r n, F { r with name := n } = F r),
      (mergedRows a b).map F = a.rows.map F ++ b.rows.map F := by
    intro β F hF
    unfold mergedRows
    rw [List.map_map, ← List.map_append]
    conv_rhs => rw [← List.zipIdx_map_fst 0 (a.rows ++ b.rows)]
    rw [List.map_map]
    apply List.map_congr_left
    rintro ⟨r, i⟩ _
    show F (if _ then _ else _) = F r
    by_cases h : dupName a b r.name = true
    · rw [if_pos h]; exact hF _ _
    · rw [if_neg h]
  unfold mergedCols
  rw [hn]
  unfold ofRows
  rw [hr (·.inter.body) (fun _ _ => rfl), hr (fun r => keyOf r.inter) (fun _ _ => rfl), hr (·.inter.key0) (fun _ _ => rfl),
    hr (·.inter.key1) (fun _ _ => rfl), hr (·.inter) (fun _ _ => rfl), hr (·.coef) (fun _ _ => rfl),
    hr (·.scale) (fun _ _ => rfl), hr (·.timestamp) (fun _ _ => rfl), hr (·.dirty) (fun _ _ => rfl),
    hr (·.removed) (fun _ _ => rfl)]
  rfl

theorem sim_mergeTables : Sim ofPair id mergeTables Sawatabi.mergeTables := by
  unfold mergeTables Sawatabi.mergeTables
  refine Sim.get.bind fun s => (Sim.liftE' ?_).bind fun cols => ?_
  · rfl
  · apply Sim.modify
    rintro ⟨a, b⟩
    show Prod.mk (CModel.mk _ (mergedCols (ofModel s.1) (ofModel s.2))) _ = _
    rw [mergedCols_eq]
    rfl

theorem sim_mergeRest : Sim ofPair id mergeRest Sawatabi.mergeRest := by
  unfold mergeRest Sawatabi.mergeRest
  refine Sim.get.bind fun s => Sim.ite Iff.rfl (fun _ => rfl) ?_
  exact Sim.modify fun _ => rfl

theorem sim_mergeSame : Sim ofPair id (do
    let s ← get
    if rankClash s.1.base s.2.base then throw .valueError
    onFst (onBase (s.2.base.vars.forM mergeVar))
    mergeTables
    mergeRest) Sawatabi.mergeSame := by
  unfold Sawatabi.mergeSame
  refine Sim.get.bind fun s => Sim.ite Iff.rfl (fun _ => rfl) ?_
  refine (Sim.onFst' (Blind.sim (Blind.forM fun p _ => blind_mergeVar p))).bind fun _ => ?_
  exact sim_mergeTables.bind fun _ => sim_mergeRest

theorem sim_merge (env : Env) (clk : Nat → ℚ) : Sim ofPair id (merge env clk) (Sawatabi.merge env clk) := by
  unfold merge Sawatabi.merge
  refine Sim.get.bind fun s => Sim.ite Iff.rfl ?_ ?_
  · exact (Sim.onSnd' (sim_convertMtype env clk)).bind fun _ => sim_mergeSame
  · exact sim_mergeSame

/-! ## Constraints -/

theorem sim_addLin (now : ℚ) (l : String) (v : PVar) (c : ℚ) : CSim id (addLin now l v c) (Sawatabi.addLin now l v c) :=
  sim_add _ _ _ _ _ _ _

theorem sim_addPair (now : ℚ) (l : String) (v w : PVar) (c : ℚ) :
    CSim id (addPair now l v w c) (Sawatabi.addPair now l v w c) := sim_add _ _ _ _ _ _ _

theorem sim_addPairsFrom (now : ℚ) (l : String) (s : ℚ) (vs : List PVar) (v : PVar) :
    CSim id (addPairsFrom now l s vs v) (Sawatabi.addPairsFrom now l s vs v) :=
  Sim.forM' fun w _ => Sim.ite Iff.rfl (sim_addPair _ _ _ _ _) (fun _ => rfl)

theorem sim_body (now : ℚ) (c : Constraint) : CSim id (body now c) (c.body now) := by
  cases c with
  | nHot l s vs n => exact Sim.forM' fun v _ => (sim_addLin _ _ _ _).bind fun _ => sim_addPairsFrom _ _ _ _ _
  | zeroOrOneHot l s vs => exact Sim.forM' fun v _ => sim_addPairsFrom _ _ _ _ _
  | equality l s v1 v2 =>
    exact (Sim.forM' fun v _ => sim_addLin _ _ _ _).bind fun _ =>
      (Sim.forM' fun v _ => sim_addPairsFrom _ _ _ _ _).bind fun _ =>
      (Sim.forM' fun v _ => sim_addPairsFrom _ _ _ _ _).bind fun _ =>
      Sim.forM' fun v _ => Sim.forM' fun w _ => sim_addPair _ _ _ _ _

theorem toModel_eq (now : ℚ) (id : String) (c : Constraint) : toModel now id c = (c.toModel now id).map ofModel := by
  unfold toModel Constraint.toModel
  have h := sim_body now c (LModel.new .qubo id)
  rw [show ofModel (LModel.new .qubo id) = CModel.new .qubo id from rfl] at h
  rw [h]
  cases (c.body now).run (LModel.new .qubo id) <;> rfl

theorem sim_mergeConstraint (env : Env) (clks : Nat → Nat → ℚ) (ids : Nat → String) (p : (String × Constraint) × Nat) :
    CSim id (mergeConstraint env clks ids p) (Sawatabi.mergeConstraint env clks ids p) := by
  unfold mergeConstraint Sawatabi.mergeConstraint
  refine (Sim.liftE (toModel_eq _ _ _)).bind fun cm => ((sim_merge env (clks p.2)).withSnd cm).congr_right fun s => ?_
  simp only [Sawatabi.withSnd]
  cases (Sawatabi.merge env (clks p.2)).run (s, cm) <;> rfl

/-! ## Grouping -/

theorem groupStep_eq (ph : List (String × ℚ)) (rs : List Row) (g : Groups) (i : Nat) (r : Row) (h : rs[i]? = some r) :
    groupStep ph (ofRows rs) g i = Sawatabi.groupStep ph g r := by
  have ha : ∀ {β : Type} (F : Row → β), getAt (rs.map F) i = .ok (F r) := fun F => by
    unfold getAt
    rw [List.getElem?_map, h]
    rfl
  unfold groupStep Sawatabi.groupStep ofRows
  simp only [ha]
  obtain ⟨nm, inter, c, sc, ts, d, rm⟩ := r
  cases rm with
  | true => rfl
  | false =>
    show (do
      let q ← (c.mul sc).resolve ph
      _) = (do
      let q ← (c.mul sc).resolve ph
      _)
    cases (c.mul sc).resolve ph with
    | error e => rfl
    | ok q => cases inter <;> rfl

theorem groupStep_out (ph : List (String × ℚ)) (rs : List Row) (g : Groups) (i : Nat) (h : rs.length ≤ i) :
    groupStep ph (ofRows rs) g i = .error .indexError := by
  unfold groupStep ofRows getAt
  rw [List.getElem?_map, List.getElem?_eq_none h]
  rfl

theorem group_range (ph : List (String × ℚ)) (rs : List Row) (n : Nat) (g : Groups) :
    (List.range n).foldlM (groupStep ph (ofRows rs)) g =
      match (rs.take n).foldlM (Sawatabi.groupStep ph) g with
      | .ok g' => if rs.length < n then .error .indexError else .ok g'
      | .error e => .error e := by
  induction n with
  | zero => rfl
  | succ n ih =>
    rw [List.range_succ, List.foldlM_append, ih]
    by_cases hn : n < rs.length
    · have ht : rs.take (n + 1) = rs.take n ++ [rs[n]] := by
        rw [List.take_succ, List.getElem?_eq_getElem hn]
        rfl
      rw [ht, List.foldlM_append]
      cases (rs.take n).foldlM (Sawatabi.groupStep ph) g with
      | error e => rfl
      | ok g' =>
        show (if rs.length < n then Except.error Err.indexError else Except.ok g') >>= _ = _
        rw [if_neg (by omega)]
        show (groupStep ph (ofRows rs) g' n >>= fun s => pure s) = match (Sawatabi.groupStep ph g' rs[n] >>= fun s => pure s) with
          | .ok g' => _
          | .error e => _
        rw [groupStep_eq ph rs g' n rs[n] (List.getElem?_eq_getElem hn)]
        cases Sawatabi.groupStep ph g' rs[n] with
        | error e => rfl
        | ok g'' =>
          show Except.ok g'' = if rs.length < n + 1 then _ else _
          rw [if_neg (by omega)]
    · rw [List.take_of_length_le (by omega : rs.length ≤ n + 1), List.take_of_length_le (by omega : rs.length ≤ n)]
      cases rs.foldlM (Sawatabi.groupStep ph) g with
      | error e => rfl
      | ok g' =>
        show (if rs.length < n then Except.error Err.indexError else Except.ok g') >>= _ =
          if rs.length < n + 1 then _ else _
        rw [if_pos (by omega : rs.length < n + 1)]
        by_cases h : rs.length < n
        · rw [if_pos h]; rfl
        · rw [if_neg h]
          show (groupStep ph (ofRows rs) g' n >>= fun s => pure s) = _
          rw [groupStep_out ph rs g' n (by omega)]
          rfl

theorem group_sim (ph : List (String × ℚ)) (m : LModel) : group ph (ofModel m) = Sawatabi.group ph m := by
  rw [group_eq]
  unfold group
  show (List.range m.length.toNat).foldlM (groupStep ph (ofRows m.rows)) _ = _
  rw [group_range]
  cases (m.rows.take m.length.toNat).foldlM (Sawatabi.groupStep ph) ⟨[], [], []⟩ with
  | error e => rfl
  | ok g =>
    show (if m.rows.length < m.length.toNat then _ else _) = if (m.rows.length : Int) < m.length then _ else _
    by_cases h : (m.rows.length : Int) < m.length
    · rw [if_pos h, if_pos (by omega)]
    · rw [if_neg h, if_neg (by omega)]

/-! ## Removing rows -/

theorem popDefault_at {α : Type} (col : Cols → List α) (upd : Cols → List α → Cols) (i : Nat) (m : CModel)
    (h : i < (col m.cols).length) :
    (popDefault col upd i).run m = .ok ⟨⟩ { m with cols := upd m.cols ((col m.cols).eraseIdx i) } := by
  unfold popDefault popAt
  py_simp
  rw [if_pos h]
  rfl

theorem sim_popRow (n : String) : CSim id (popRow n) (Sawatabi.popRow n) := by
  unfold popRow Sawatabi.popRow
  refine Sim.get_bind fun m => ?_
  refine SimAt.bind (g := id) ((Sim.liftE' (indexOf_eq m n)) m) fun i t ht => ?_
  have hi : m.indexOf n = .ok i ∧ t = m := by
    cases h : m.indexOf n with
    | error e => rw [h] at ht; cases ht
    | ok j => rw [h] at ht; cases ht; exact ⟨rfl, rfl⟩
  obtain ⟨hi, rfl⟩ := hi
  have hlt := indexOf_lt hi
  have key : ∀ k : PUnit → Py CModel PUnit, (do
      popDefault (·.body) (fun d l => { d with body := l }) i
      popDefault (·.name) (fun d l => { d with name := l }) i
      popDefault (·.key) (fun d l => { d with key := l }) i
      popDefault (·.key0) (fun d l => { d with key0 := l }) i
      popDefault (·.key1) (fun d l => { d with key1 := l }) i
      popDefault (·.interacts) (fun d l => { d with interacts := l }) i
      popDefault (·.coef) (fun d l => { d with coef := l }) i
      popDefault (·.scale) (fun d l => { d with scale := l }) i
      popDefault (·.timestamp) (fun d l => { d with timestamp := l }) i
      popDefault (·.dirty) (fun d l => { d with dirty := l }) i
      popDefault (·.removed) (fun d l => { d with removed := l }) i >>= k).run (ofModel t) =
        (k ⟨⟩).run (ofModel { t with rows := t.rows.eraseIdx i }) := by
    intro k
    iterate 11
      rw [Py.run_bind, popDefault_at _ _ _ _ (by simpa [ofModel, ofRows] using hlt)]
      simp only
    congr 1
    simp only [ofModel, ofRows, CModel.mk.injEq, Cols.mk.injEq, true_and]
    simp only [List.eraseIdx_map, and_self]
  unfold SimAt
  refine (key _).trans ?_
  have h2 : CSim id (do
      onBase ((dkeys t.attrCols).forM (popCol i))
      modify fun m => { m with base := { m.base with length := m.base.length - 1 } }) (do
      (dkeys t.attrCols).forM (popCol i)
      modify fun m => { m with length := m.length - 1 }) := by
    refine (Blind.sim (Blind.forM fun k _ => blind_popCol i k)).bind fun _ => ?_
    exact Sim.modify fun _ => rfl
  exact h2 { t with rows := t.rows.eraseIdx i }

/-! ## The dirty marks -/

theorem clean_fold (n : Nat) (l : List Bool) (h : n ≤ l.length) :
    (List.range n).foldl (fun acc i => acc.set i false) l = (l.take n).map (fun _ => false) ++ l.drop n := by
  induction n with
  | zero => simp
  | succ n ih =>
    have hn : n < l.length := by omega
    rw [List.range_succ, List.foldl_append, ih (by omega)]
    show ((l.take n).map (fun _ => false) ++ l.drop n).set n false = _
    have ht : l.take (n + 1) = l.take n ++ [l[n]] := by
      rw [List.take_succ, List.getElem?_eq_getElem hn]
      rfl
    have hlen : ((l.take n).map fun _ => false).length = n := by
      rw [List.length_map, List.length_take, Nat.min_eq_left (Nat.le_of_lt hn)]
    rw [ht, List.map_append, List.append_assoc, List.drop_eq_getElem_cons hn,
      List.set_append_right _ _ (by omega), hlen, Nat.sub_self]
    rfl

theorem clean_run (m : LModel) (h : m.length ≤ m.rows.length) :
    ((List.range m.length.toNat).forM cleanAt).run (ofModel m) = .ok ⟨⟩ (ofModel (markClean m)) := by
  have hrun := Py.forM_fold_inv (I := fun s : CModel => s.cols.dirty.length = m.rows.length) cleanAt
    (fun s i => { s with cols := { s.cols with dirty := s.cols.dirty.set i false } }) (List.range m.length.toNat)
    (by
      intro i hi s hs
      have hi' : i < s.cols.dirty.length := by
        have := List.mem_range.mp hi
        omega
      refine ⟨?_, by simpa using hs⟩
      unfold cleanAt getAt
      py_simp
      rw [List.getElem?_eq_getElem hi']
      simp only [Py.run_liftE_ok]
      cases hd : s.cols.dirty[i] with
      | true =>
        rw [if_pos rfl]
        unfold putCol putAt
        py_simp
        rw [if_pos hi']
        rfl
      | false =>
        rw [if_neg (by simp)]
        show Res.ok _ s = Res.ok _ _
        congr 1
        have : s.cols.dirty.set i false = s.cols.dirty := by
          rw [← hd]
          exact List.set_getElem_self hi'
        rw [this])
    (ofModel m) (by simp [ofModel, ofRows])
  rw [hrun]
  have hfold : ∀ (l : List Nat) (s : CModel),
      l.foldl (fun s i => ({ s with cols := { s.cols with dirty := s.cols.dirty.set i false } } : CModel)) s =
        { s with cols := { s.cols with dirty := (List.foldl (fun acc i => acc.set i false) s.cols.dirty l) } } := by
    intro l
    induction l with
    | nil => intro s; rfl
    | cons p l ih => intro s; rw [List.foldl_cons, List.foldl_cons, ih]
  rw [hfold, clean_fold _ _ (by simp [ofModel, ofRows]; omega)]
  congr 1
  have hr : ∀ {β : Type} (F : Row → β), m.rows.map F = (m.rows.take m.length.toNat).map F ++ (m.rows.drop m.length.toNat).map F := by
    intro β F
    rw [← List.map_append, List.take_append_drop]
  show CModel.mk _ _ = CModel.mk _ _
  congr 1
  simp only [ofModel, markClean, ofRows, List.map_append, List.map_map, Cols.mk.injEq]
  refine ⟨hr _, hr _, hr _, hr _, hr _, hr _, hr _, hr _, hr _, ?_, hr _⟩
  rw [← List.map_take, ← List.map_drop, List.map_map]
  rfl

/-! ## `to_physical` -/

theorem constraintModel_rect {env : Env} {clk : Nat → ℚ} {id : String} {c : Constraint} {mt : MType} {b : LModel}
    (h : ConstraintModel env clk id c mt b) : b.Rect := by
  cases h with
  | qubo h => exact toModel_rect h
  | ising h hc =>
    have := toIsing_rect env clk _ (toModel_rect h)
    rw [hc] at this
    exact this

theorem absorbed_room {env : Env} {clks : Nat → Nat → ℚ} {ids : Nat → String} {cs : List ((String × Constraint) × Nat)}
    {m m₁ : LModel} (h : (cs.forM (Sawatabi.mergeConstraint env clks ids)).run m = .ok ⟨⟩ m₁)
    (hl : m₁.length ≤ m₁.rows.length) : m.length ≤ m.rows.length := by
  obtain ⟨bs, h1, h2⟩ := constraintLoop_absorbed cs h
  have hlen : m₁.rows.length = m.rows.length + (bs.map (·.rows.length)).sum := by
    have := congrArg List.length h2.rows
    simpa [List.length_flatMap] using this
  have hb : (bs.map (·.length)).sum = ((bs.map (·.rows.length)).sum : Nat) := by
    clear h2 hlen h
    induction h1 with
    | nil => rfl
    | cons hp _ ih =>
      simp only [List.map_cons, List.sum_cons, Nat.cast_add]
      rw [ih, (constraintModel_rect hp.1).len]
  have := h2.length
  omega

theorem popRow_room (n : String) (m : LModel) (h : m.length ≤ m.rows.length) {t : LModel}
    (hr : (Sawatabi.popRow n).run m = .ok ⟨⟩ t) : t.length ≤ t.rows.length := by
  unfold Sawatabi.popRow at hr
  py_simp at hr
  cases hi : m.indexOf n with
  | error e => rw [hi] at hr; cases hr
  | ok i =>
    rw [hi] at hr
    simp only [Py.run_liftE_ok] at hr
    have hlt := indexOf_lt hi
    have hp := Py.forM_rel (R := fun s t : LModel => t.rows = s.rows ∧ t.length = s.length) (fun _ => ⟨rfl, rfl⟩)
      (fun a b c h1 h2 => ⟨by rw [h2.1, h1.1], by rw [h2.2, h1.2]⟩) (popCol i) (dkeys m.attrCols)
      (fun k _ s => by
        unfold popCol
        py_simp
        cases dget s.attrCols k with
        | none => exact ⟨rfl, rfl⟩
        | some c => simp only [Py.run_ite]; split <;> exact ⟨rfl, rfl⟩) { m with rows := m.rows.eraseIdx i }
    cases hf : ((dkeys m.attrCols).forM (popCol i)).run { m with rows := m.rows.eraseIdx i } with
    | error e u => rw [hf] at hr; cases hr
    | ok v u =>
      rw [hf] at hr hp
      cases hr
      obtain ⟨h1, h2⟩ := hp
      show u.length - 1 ≤ (u.rows.length : Int)
      rw [show u.rows = _ from h1, show u.length = m.length from h2]
      show m.length - 1 ≤ ((m.rows.eraseIdx i).length : Int)
      rw [List.length_eraseIdx_of_lt hlt]
      omega

theorem popRows_room (ns : List String) (m : LModel) (h : m.length ≤ m.rows.length) {t : LModel}
    (hr : (ns.forM Sawatabi.popRow).run m = .ok ⟨⟩ t) : t.length ≤ t.rows.length := by
  induction ns generalizing m with
  | nil => cases hr; exact h
  | cons n ns ih =>
    rw [Py.run_forM_cons] at hr
    cases hp : (Sawatabi.popRow n).run m with
    | error e u => rw [hp] at hr; cases hr
    | ok v u =>
      rw [hp] at hr
      exact ih u (popRow_room n m h hp) hr

theorem sim_toPhysical (env : Env) (clks : Nat → Nat → ℚ) (ids : Nat → String) (ph : List (String × ℚ)) :
    CSim id (toPhysical env clks ids ph) (Sawatabi.toPhysical env clks ids ph) := by
  intro m
  rw [toPhysical_run]
  unfold toPhysical
  py_simp
  have h1 := (Sim.forM' (l := m.constraints.zipIdx) fun p _ => sim_mergeConstraint env clks ids p) m
  rw [show (ofModel m).base.constraints = m.constraints from rfl, h1]
  cases hm : (m.constraints.zipIdx.forM (Sawatabi.mergeConstraint env clks ids)).run m with
  | error e m₁ => rfl
  | ok u m₁ =>
    simp only [Res.both, id]
    rw [group_sim]
    cases hg : Sawatabi.group ph m₁ with
    | error e => rfl
    | ok g =>
      simp only [Py.run_liftE_ok]
      rw [show (ofModel m₁).base.offset = m₁.offset from rfl]
      cases m₁.offset.resolve ph with
      | error e => rfl
      | ok off =>
        simp only [Py.run_liftE_ok]
        have h2 := (Sim.forM' (l := g.willRemove) fun n _ => sim_popRow n) (restored m m₁)
        rw [show ofModel (restored m m₁) = _ from rfl] at h2
        erw [h2]
        cases hp : (g.willRemove.forM Sawatabi.popRow).run (restored m m₁) with
        | error e m₂ => rfl
        | ok v m₂ =>
          have hroom : m₂.length ≤ m₂.rows.length :=
            popRows_room _ (restored m m₁) (absorbed_room (m := m) hm (group_prefix hg).2 :) hp
          simp only [Res.both, id]
          rw [show (ofModel m₂).base.length = m₂.length from rfl, clean_run m₂ hroom]
          rfl

/-! ## `from_pyqubo` -/

/-- The model of a pair with a pyqubo model. -/
abbrev ofFst : LModel × PModel → CModel × PModel := Prod.map ofModel id

theorem sim_fromPyquboStep (now : ℚ) (kv : (String × String) × Coef) :
    Sim ofFst id (fromPyquboStep now kv) (Sawatabi.fromPyquboStep now kv) := by
  unfold fromPyquboStep Sawatabi.fromPyquboStep
  refine Sim.get.bind fun s => (Sim.liftE' (e := lookupVar s.1 s.2.struct kv.1.1) rfl).bind fun t0 =>
    (Sim.liftE' (e := lookupVar s.1 s.2.struct kv.1.2) rfl).bind fun t1 => ?_
  have hrest : Sim ofFst id
      (if kv.1.1 = kv.1.2 then
        onFst (addInteraction now (.var t0) (.str "") (negCoef kv.2).toPy (.num 1) .none .none)
      else
        onFst (addInteraction now (.tuple [some t0, some t1]) (.str "") (negCoef kv.2).toPy (.num 1) .none .none))
      (if kv.1.1 = kv.1.2 then
        onFst (Sawatabi.addInteraction now (.var t0) (.str "") (negCoef kv.2).toPy (.num 1) .none .none)
      else
        onFst (Sawatabi.addInteraction now (.tuple [some t0, some t1]) (.str "") (negCoef kv.2).toPy (.num 1) .none .none)) :=
    Sim.ite Iff.rfl (Sim.onFst (sim_add _ _ _ _ _ _ _)) (Sim.onFst (sim_add _ _ _ _ _ _ _))
  refine Sim.ite Iff.rfl ?_ hrest
  refine (Sim.modify fun _ => ?_).bind fun _ => hrest
  rfl

theorem sim_fromPyqubo (now : ℚ) : Sim ofFst id (fromPyqubo now) (Sawatabi.fromPyqubo now) := by
  unfold fromPyqubo Sawatabi.fromPyqubo
  refine Sim.get.bind fun s => (Sim.forM' (l := s.2.qubo) fun kv _ => sim_fromPyquboStep now kv).bind fun _ => ?_
  exact Sim.modify fun _ => rfl

/-! ## Histories -/

theorem sim_call (env : Env) (op : Op) (h : ∀ clk o, op ≠ .merge clk o) : CSim id (call env op) (op.call env) := by
  cases op with
  | «variables» n sh => exact Blind.sim (blind_void (blind_createVars n sh))
  | variablesArray a => exact Blind.sim (blind_void (blind_variablesArray a))
  | append n sh => exact Blind.sim (blind_void (blind_appendVars n sh))
  | add => exact sim_add _ _ _ _ _ _ _
  | update => exact sim_update _ _ _ _ _ _ _ _
  | remove => exact sim_remove _ _
  | select v => exact (sim_select v).void
  | delete v => exact sim_delete v
  | fix clk v q => exact sim_fix clk v q
  | addConstraint c => exact Blind.sim (blind_addConstraint c)
  | removeConstraint l => exact Blind.sim (blind_removeConstraint l)
  | setOffset c => exact Blind.sim (blind_setOffset c)
  | fromPyqubo now pm => exact (sim_fromPyqubo now).withSnd (k := id) pm
  | toIsing clk => exact sim_toIsing env clk
  | toQubo clk => exact sim_toQubo env clk
  | merge clk o => exact absurd rfl (h clk o)
  | toPhysical clks ids ph => exact (sim_toPhysical env clks ids ph).void

/-- What a merge leaves of its argument. -/
theorem merge_argument (env : Env) (clk : Nat → ℚ) (a b : LModel) : ((Sawatabi.merge env clk).run (a, b)).state.2 = b ∨
    ((Sawatabi.merge env clk).run (a, b)).state.2 = Op.step env b (.toIsing clk) ∨
    ((Sawatabi.merge env clk).run (a, b)).state.2 = Op.step env b (.toQubo clk) := by
  rw [merge_run]
  by_cases h : a.mtype = b.mtype
  · rw [if_pos h]; exact .inl (mergeSame_snd a b)
  · rw [if_neg h]
    have hc : ((Sawatabi.convertMtype env clk).run b).state = Op.step env b (.toIsing clk) ∨
        ((Sawatabi.convertMtype env clk).run b).state = Op.step env b (.toQubo clk) := by
      unfold Sawatabi.convertMtype
      py_simp
      cases b.mtype with
      | qubo => exact .inl rfl
      | ising => exact .inr rfl
    right
    cases hr : (Sawatabi.convertMtype env clk).run b with
    | error e b₁ => rw [hr] at hc; exact hc
    | ok u b₁ =>
      rw [hr] at hc
      simp only [mergeSame_snd]
      exact hc

theorem made_of_cmade {env : Env} {c : CModel} (h : CMade env c) : ∃ m, Made env AnyCall m ∧ c = ofModel m := by
  induction h with
  | new mt id => exact ⟨_, .new mt id, rfl⟩
  | step c op _ ih =>
    obtain ⟨m, hm, rfl⟩ := ih
    by_cases hop : ∃ clk o, op = .merge clk o
    · obtain ⟨clk, o, rfl⟩ := hop
      exact ⟨m, hm, rfl⟩
    · refine ⟨op.step env m, .step m op hm trivial fun clk o h => absurd ⟨clk, o, h⟩ hop, ?_⟩
      exact (sim_call env op fun clk o h => hop ⟨clk, o, h⟩).state m
  | merge c o clk _ _ ih iho =>
    obtain ⟨m, hm, rfl⟩ := ih
    obtain ⟨b, hb, rfl⟩ := iho
    refine ⟨Op.step env m (.merge clk b), .step m _ hm trivial ?_, ?_⟩
    · intro clk' o' h
      cases h
      exact hb
    · exact ((sim_merge env clk).withSnd b).state m
  | merged c o clk _ _ ih iho =>
    obtain ⟨m, hm, rfl⟩ := ih
    obtain ⟨b, hb, rfl⟩ := iho
    have h := (sim_merge env clk).state (m, b)
    have h2 : ((merge env clk).run (ofModel m, ofModel b)).state.2 = ofModel ((Sawatabi.merge env clk).run (m, b)).state.2 :=
      congrArg Prod.snd h
    refine ⟨_, ?_, h2⟩
    rcases merge_argument env clk m b with e | e | e
    · rw [e]; exact hb
    · rw [e]; exact .step b _ hb trivial fun _ _ h => by cases h
    · rw [e]; exact .step b _ hb trivial fun _ _ h => by cases h

end Col

end Sawatabi
