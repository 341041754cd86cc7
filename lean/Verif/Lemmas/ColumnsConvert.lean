import Verif.Lemmas.Columns
import Verif.Lemmas.Absorb

/-!
# The row model and the column model behave alike: conversions, merge, physical model
-/

namespace Sawatabi

/-- A loop whose rounds succeed under an invariant is a fold. -/
theorem Py.forM_fold_inv {σ α : Type} {I : σ → Prop} (f : α → Py σ PUnit) (g : σ → α → σ) (l : List α)
    (h : ∀ x ∈ l, ∀ s, I s → (f x).run s = .ok ⟨⟩ (g s x) ∧ I (g s x)) (s : σ) (hs : I s) :
    (l.forM f).run s = .ok ⟨⟩ (l.foldl g s) := by
  induction l generalizing s with
  | nil => rfl
  | cons x l ih =>
    obtain ⟨h1, h2⟩ := h x (by simp) s hs
    rw [Py.run_forM_cons, h1]
    exact ih (fun y hy => h y (by simp [hy])) _ h2

namespace Col

/-! ## `to_ising`, `to_qubo` -/

theorem ofRows_retype (vt : VType) (rs : List Row) :
    ofRows (rs.map fun r => if r.removed then r else { r with inter := r.inter.retype vt }) =
      { ofRows rs with interacts := rs.map fun r => if !r.removed then r.inter.retype vt else r.inter } := by
  have hb : ∀ i : Inter, (i.retype vt).body = i.body := fun i => by cases i <;> rfl
  have hk : ∀ i : Inter, keyOf (i.retype vt) = keyOf i := fun i => by cases i <;> rfl
  have h0 : ∀ i : Inter, (i.retype vt).key0 = i.key0 := fun i => by cases i <;> rfl
  have h1 : ∀ i : Inter, (i.retype vt).key1 = i.key1 := fun i => by cases i <;> rfl
  simp only [ofRows, List.map_map, Cols.mk.injEq]
  refine ⟨?_, ?_, ?_, ?_, ?_, ?_, ?_, ?_, ?_, ?_, ?_⟩
  all_goals
    apply List.map_congr_left
    intro r _
    cases hr : r.removed <;> simp [hr, hb, hk, h0, h1]

theorem sim_retypeRows (m : LModel) : SimAt ofModel id m (do
    let c := (← get).cols
    ((c.interacts.zip c.removed).zipIdx.filter fun p => !p.1.2).forM fun p => do
      putCol (·.interacts) (fun d l => { d with interacts := l }) p.2 (p.1.1.retype (← get).base.mtype.vtype))
    (modify fun m => { m with rows := m.rows.map fun r =>
      if r.removed then r else { r with inter := r.inter.retype m.mtype.vtype } }) := by
  unfold SimAt
  py_simp
  have hz : ((ofModel m).cols.interacts.zip (ofModel m).cols.removed).zipIdx.filter (fun p => !p.1.2) =
      (m.rows.zipIdx.filter fun p => !p.1.removed).map fun p => ((p.1.inter, p.1.removed), p.2) := by
    simp only [ofModel, ofRows, List.zip_map', List.zipIdx_map, List.filter_map]
    rfl
  rw [hz]
  have hrun := Py.forM_fold_inv
    (I := fun s : CModel => s.cols.interacts.length = m.rows.length ∧ s.base.mtype = m.mtype)
    (fun p : (Inter × Bool) × Nat => do
      putCol (·.interacts) (fun d l => { d with interacts := l }) p.2 (p.1.1.retype (← get).base.mtype.vtype))
    (fun s p => { s with cols := { s.cols with interacts := s.cols.interacts.set p.2 (p.1.1.retype m.mtype.vtype) } })
    ((m.rows.zipIdx.filter fun p => !p.1.removed).map fun p => ((p.1.inter, p.1.removed), p.2))
    (by
      rintro x hx s ⟨h1, h2⟩
      obtain ⟨p, hp, rfl⟩ := List.mem_map.mp hx
      have hlt : p.2 < m.rows.length := by
        have := List.mem_zipIdx (List.mem_of_mem_filter hp)
        omega
      refine ⟨?_, by simpa using h1, h2⟩
      unfold putCol putAt
      py_simp
      rw [h1, if_pos hlt, h2]
      rfl)
    (ofModel m) ⟨by simp [ofModel, ofRows], rfl⟩
  rw [hrun]
  have hfold : ∀ (l : List ((Inter × Bool) × Nat)) (s : CModel),
      l.foldl (fun s p => ({ s with cols := { s.cols with interacts := s.cols.interacts.set p.2 (p.1.1.retype m.mtype.vtype) } } : CModel)) s =
        { s with cols := { s.cols with interacts :=
          (List.foldl (fun acc p => acc.set p.2 (p.1.1.retype m.mtype.vtype)) s.cols.interacts l) } } := by
    intro l
    induction l with
    | nil => intro s; rfl
    | cons p l ih => intro s; rw [List.foldl_cons, List.foldl_cons, ih]
  rw [hfold, List.foldl_map]
  have := fold_set_map (fun r : Row => !r.removed) (·.inter) (·.retype m.mtype.vtype) m.rows []
  simp only [List.length_nil, List.nil_append] at this
  show Res.ok _ _ = Res.ok _ (ofModel _)
  congr 1
  show CModel.mk _ _ = CModel.mk _ _
  rw [ofRows_retype]
  congr 1
  show Cols.mk _ _ _ _ _ _ _ _ _ _ _ = Cols.mk _ _ _ _ _ _ _ _ _ _ _
  congr 1

theorem sim_updateVariablesType : CSim id updateVariablesType Sawatabi.updateVariablesType := by
  unfold updateVariablesType Sawatabi.updateVariablesType
  refine Sim.get.bind fun m => ?_
  refine (Blind.sim (Blind.forM fun n _ => blind_retypeVar n)).bind fun _ => ?_
  refine sim_makeFrame.bind fun _ => ?_
  exact fun m => sim_retypeRows m

theorem sim_updateCoef (env : Env) (n : String) (c : Coef) : CSim id (updateCoef env n c) (Sawatabi.updateCoef env n c) :=
  sim_update _ _ _ _ _ _ _ _

theorem sim_addOffset (c : Coef) : CSim id (addOffset c) (modify fun m => { m with offset := m.offset.add c }) :=
  Sim.modify fun _ => rfl

theorem sim_toIsingLin (env : Env) (r : Row) : CSim id (toIsingLin env (recOf r)) (Sawatabi.toIsingLin env r) :=
  (sim_updateCoef _ _ _).bind fun _ => sim_addOffset _

theorem sim_toQuboLin (env : Env) (r : Row) : CSim id (toQuboLin env (recOf r)) (Sawatabi.toQuboLin env r) :=
  (sim_updateCoef _ _ _).bind fun _ => sim_addOffset _

theorem sim_toIsingQuad (env : Env) (clk : Nat → ℚ) (r : Row) :
    CSim id (toIsingQuad env clk (recOf r)) (Sawatabi.toIsingQuad env clk r) := by
  obtain ⟨nm, inter, c, sc, ts, d, rm⟩ := r
  cases inter with
  | lin v => exact fun _ => rfl
  | quad v w =>
    exact (sim_updateCoef _ _ _).bind fun _ => (sim_add _ _ _ _ _ _ _).bind fun _ => (sim_add _ _ _ _ _ _ _).bind fun _ =>
      sim_addOffset _

theorem sim_toQuboQuad (env : Env) (clk : Nat → ℚ) (r : Row) :
    CSim id (toQuboQuad env clk (recOf r)) (Sawatabi.toQuboQuad env clk r) := by
  obtain ⟨nm, inter, c, sc, ts, d, rm⟩ := r
  cases inter with
  | lin v => exact fun _ => rfl
  | quad v w =>
    exact (sim_updateCoef _ _ _).bind fun _ => (sim_add _ _ _ _ _ _ _).bind fun _ => (sim_add _ _ _ _ _ _ _).bind fun _ =>
      sim_addOffset _

theorem zipIdx_recOf (l : List Row) : (l.map recOf).zipIdx = l.zipIdx.map fun p => (recOf p.1, p.2) := by
  rw [List.zipIdx_map]
  rfl

theorem sim_toIsing (env : Env) (clk : Nat → ℚ) : CSim id (toIsing env clk) (Sawatabi.toIsing env clk) := by
  unfold toIsing Sawatabi.toIsing
  refine Sim.get.bind fun m => Sim.ite Iff.rfl ?_ (fun _ => rfl)
  refine (Sim.modify (f := ofModel) fun _ => ?_).bind fun _ => sim_updateVariablesType.bind fun _ => ?_
  · rfl
  refine (sim_selectBody 1).bind fun hs => ?_
  refine (Sim.forM fun r _ => sim_toIsingLin env r).bind fun _ => ?_
  refine (sim_selectBody 2).bind fun js => ?_
  rw [zipIdx_recOf]
  exact Sim.forM fun p _ => sim_toIsingQuad _ _ _

theorem sim_toQubo (env : Env) (clk : Nat → ℚ) : CSim id (toQubo env clk) (Sawatabi.toQubo env clk) := by
  unfold toQubo Sawatabi.toQubo
  refine Sim.get.bind fun m => Sim.ite Iff.rfl ?_ (fun _ => rfl)
  refine (Sim.modify (f := ofModel) fun _ => ?_).bind fun _ => sim_updateVariablesType.bind fun _ => ?_
  · rfl
  refine (sim_selectBody 1).bind fun hs => ?_
  refine (Sim.forM fun r _ => sim_toQuboLin env r).bind fun _ => ?_
  refine (sim_selectBody 2).bind fun js => ?_
  rw [zipIdx_recOf]
  exact Sim.forM fun p _ => sim_toQuboQuad _ _ _

theorem sim_convertMtype (env : Env) (clk : Nat → ℚ) : CSim id (convertMtype env clk) (Sawatabi.convertMtype env clk) := by
  unfold convertMtype Sawatabi.convertMtype
  refine Sim.get.bind fun m => ?_
  show Sim ofModel id (match m.mtype with | .qubo => _ | .ising => _) _
  cases m.mtype with
  | qubo => exact sim_toIsing env clk
  | ising => exact sim_toQubo env clk

end Col

end Sawatabi
