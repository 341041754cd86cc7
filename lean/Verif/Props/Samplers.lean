import Verif.Model.Samplers
import Verif.Props.SolverArgs
import Verif.Props.PhysicalConvert

/-!
# All solvers: empty models (C56), the exact solver (C57), Optigan (C58)
-/

namespace Sawatabi.Props

variable {p : Physical} {ls : List String} {log log' : List Bqm} {res : List (Sample × ℚ)}

/-! ## C56: empty models -/

/-- A physical model without interactions. -/
def Empty (p : Physical) : Prop := p.linear = [] ∧ p.quad = []

theorem empty_iff : p.isEmptyModel = true ↔ Empty p := by
  simp [Physical.isEmptyModel, Empty, List.isEmpty_iff]

/-- Every solver rejects an empty model with ValueError, sends nothing to a sampler or server, and changes no argument. -/
theorem C56_empty (h : Empty p) :
    (∀ sampler log, (localSolve sampler p).run log = .error .valueError log) ∧
    (∀ {β : Type} (range : Bqm → Except Err β) log, (defaultBetaRange range p).run log = .error .valueError log) ∧
    (∀ composite log, (dwaveSolve composite p).run log = .error .valueError log) ∧
    (∀ c server n t d log, (optiganSolve c server p n t d).run log = .error .valueError log) ∧
    (∀ {γ : Type} (rng : Rng γ) (seeded : Nat → γ) (fresh : γ) (exp : ℚ → Except Err ℚ) (numReads : Int) (o : Options)
      (seed : Option Int) (init : Option (List Sample)),
      (solve rng seeded fresh exp p numReads o seed).run init = .error .valueError init) := by
  have he := empty_iff.mpr h
  refine ⟨fun _ _ => ?_, fun _ _ => ?_, fun _ _ => ?_, fun _ _ _ _ _ _ => ?_, fun rng seeded fresh exp numReads o seed init => ?_⟩
  · simp only [localSolve, he, if_true, Py.run_bind, Py.run_throw]
  · simp only [defaultBetaRange, he, if_true, Py.run_bind, Py.run_throw]
  · simp only [dwaveSolve, he, if_true, Py.run_bind, Py.run_throw]
  · simp only [optiganSolve, he, if_true, Py.run_bind, Py.run_throw]
  · rw [solve_run]
    have : checkArgs p numReads o init = .error .valueError := by
      unfold checkArgs
      simp only [he, if_true]
      rfl
    rw [this]

/-- A model with an interaction is sent exactly once, as the model with its own energy. -/
theorem C56_nonempty (h : ¬ Empty p) :
    (∀ sampler log, ((localSolve sampler p).run log).state = log ++ [p.toBqm (-1)]) ∧
    (∀ composite log, ((dwaveSolve composite p).run log).state = log ++ [p.toBqm (-1)]) ∧
    ∀ σ, (p.toBqm (-1)).energy σ = p.energy σ := by
  have he : p.isEmptyModel = false := by
    cases hb : p.isEmptyModel with
    | false => rfl
    | true => exact absurd (empty_iff.mp hb) h
  refine ⟨fun sampler log => ?_, fun composite log => ?_, fun σ => (C28_bqm_energy p σ).1⟩
  · unfold localSolve
    simp only [he, Bool.false_eq_true, if_false, Py.run_bind, Py.run_modify]
    cases sampler with
    | none => simp only [Py.run_liftE]; cases exactSample (p.toBqm (-1)) <;> rfl
    | some f => simp only [Py.run_liftE]; cases f (p.toBqm (-1)) <;> rfl
  · unfold dwaveSolve
    simp only [he, Bool.false_eq_true, if_false, Py.run_bind, Py.run_modify, Py.run_liftE]
    cases composite (p.toBqm (-1)) <;> rfl

example : Empty ⟨.ising, [], [], 3, [], [], []⟩ ∧ ¬ Empty Ex.physIsing := ⟨⟨rfl, rfl⟩, by unfold Empty; decide +kernel⟩

/-! ## C57: the exact solver -/

/-- The coefficients of a physical model are keyed as `to_physical` does it (C26). -/
structure Keyed (p : Physical) : Prop where
  linear : (dkeys p.linear).Nodup
  quad : (dkeys p.quad).Nodup
  ordered : ∀ k ∈ dkeys p.quad, k.1 < k.2

/-- The labels of a physical model. -/
def _root_.Sawatabi.Physical.Uses (p : Physical) (v : String) : Prop := v ∈ dkeys p.linear ∨ ∃ k ∈ dkeys p.quad, k.1 = v ∨ k.2 = v

theorem mem_allSamples (vt : VType) (vs : List String) (s : Sample) :
    s ∈ allSamples vt vs ↔ ∃ x : List ℤ, x.length = vs.length ∧ s = vs.zip x ∧ ∀ a ∈ x, vt.Domain a := by
  have hv : ∀ a, a ∈ vt.values ↔ vt.Domain a := by
    intro a
    cases vt <;> simp [VType.values, VType.Domain]
    exact or_comm
  induction vs generalizing s with
  | nil =>
    simp only [allSamples, List.mem_singleton, List.length_nil, List.zip_nil_left]
    constructor
    · rintro rfl; exact ⟨[], rfl, rfl, by simp⟩
    · rintro ⟨x, _, h, _⟩; exact h
  | cons v vs ih =>
    simp only [allSamples, List.mem_flatMap, List.mem_map]
    constructor
    · rintro ⟨t, ht, a, ha, rfl⟩
      obtain ⟨x, h1, rfl, h3⟩ := (ih t).mp ht
      exact ⟨a :: x, by simp [h1], rfl, fun b hb => by
        rcases List.mem_cons.mp hb with rfl | hb
        · exact (hv _).mp ha
        · exact h3 b hb⟩
    · rintro ⟨x, h1, rfl, h3⟩
      cases x with
      | nil => simp at h1
      | cons a x =>
        exact ⟨vs.zip x, (ih _).mpr ⟨x, by simpa using h1, rfl, fun b hb => h3 b (List.mem_cons_of_mem _ hb)⟩, a,
          (hv a).mpr (h3 a List.mem_cons_self), rfl⟩

theorem allSamples_nodup (vt : VType) (vs : List String) : (allSamples vt vs).Nodup := by
  induction vs with
  | nil => simp [allSamples]
  | cons v vs ih =>
    have hv : vt.values.Nodup := by cases vt <;> decide
    unfold allSamples
    rw [List.nodup_flatMap]
    refine ⟨fun s _ => hv.map (fun a b h => by simpa using h), ih.imp ?_⟩
    intro s t hst u hu hu'
    obtain ⟨a, _, rfl⟩ := List.mem_map.mp hu
    obtain ⟨b, _, hb⟩ := List.mem_map.mp hu'
    simp only [List.cons.injEq] at hb
    exact hst hb.2.symm

theorem allSamples_length (vt : VType) (vs : List String) : (allSamples vt vs).length = 2 ^ vs.length := by
  have hv : vt.values.length = 2 := by cases vt <;> rfl
  induction vs with
  | nil => rfl
  | cons v vs ih => simp [allSamples, List.length_flatMap, hv, ih, Nat.pow_succ]

theorem localSolve_exact (hne : ¬ Empty p) (hk : Keyed p) :
    (localSolve none p).run log = .ok ((allSamples p.mtype.vtype (p.toBqm (-1)).variables).map fun s => (s, p.energy s.assign))
      (log ++ [p.toBqm (-1)]) := by
  have he : p.isEmptyModel = false := by
    cases hb : p.isEmptyModel with
    | false => rfl
    | true => exact absurd (empty_iff.mp hb) hne
  obtain ⟨h1, h2⟩ := toBqm_keys p (-1)
  have hw : (p.toBqm (-1)).Wf := ⟨by rw [h1]; exact hk.linear, by rw [h2]; exact hk.quad, by rw [h2]; exact hk.ordered⟩
  have hn := (p.toBqm (-1)).variables_nodup
  have hex : exactSample (p.toBqm (-1)) = .ok ((allSamples p.mtype.vtype (p.toBqm (-1)).variables).map
      fun s => (s, p.energy s.assign)) := by
    unfold exactSample
    apply mapM_ok_of
    intro s hs
    obtain ⟨x, hx, rfl, _⟩ := (mem_allSamples _ _ s).mp hs
    rw [sampleEnergy_zip hw (fun _ => Iff.rfl) hn hx, Except.bind_ok, zip_assign hn hx, (C28_bqm_energy p _).1]
    rfl
  unfold localSolve
  simp only [he, Bool.false_eq_true, if_false, Py.run_bind, Py.run_modify, hex, Py.run_liftE]

/-- The exact solver returns each assignment of the variables of the model, with its energy in the model. -/
theorem C57_all_assignments_partial (hne : ¬ Empty p) (hk : Keyed p)
    (h : (localSolve none p).run log = .ok res log') :
    (∀ r ∈ res, r.2 = p.energy r.1.assign ∧ (dkeys r.1).Nodup ∧ (∀ v, v ∈ dkeys r.1 ↔ p.Uses v) ∧
      ∀ kv ∈ r.1, p.mtype.vtype.Domain kv.2) ∧
    ∀ f : String → ℤ, (∀ v, p.Uses v → p.mtype.vtype.Domain (f v)) → ∃ r ∈ res, ∀ v, p.Uses v → dget r.1 v = some (f v) := by
  rw [localSolve_exact hne hk] at h
  cases h
  obtain ⟨k1, k2⟩ := toBqm_keys p (-1)
  have hn := (p.toBqm (-1)).variables_nodup
  have hu : ∀ v, v ∈ (p.toBqm (-1)).variables ↔ p.Uses v := by
    intro v
    rw [Bqm.mem_variables, k1, k2]
    rfl
  constructor
  · intro r hr
    obtain ⟨s, hs, rfl⟩ := List.mem_map.mp hr
    obtain ⟨x, hx, rfl, hd⟩ := (mem_allSamples _ _ s).mp hs
    have hkeys : dkeys ((p.toBqm (-1)).variables.zip x) = (p.toBqm (-1)).variables := List.map_fst_zip (by omega)
    refine ⟨rfl, by rw [hkeys]; exact hn, fun v => by rw [hkeys]; exact hu v, fun kv hkv => hd _ (List.of_mem_zip hkv).2⟩
  · intro f hf
    refine ⟨(((p.toBqm (-1)).variables.zip ((p.toBqm (-1)).variables.map f)), _), List.mem_map.mpr ⟨_, (mem_allSamples _ _ _).mpr
      ⟨_, by simp, rfl, ?_⟩, rfl⟩, fun v hv => zip_get hn ((hu v).mpr hv)⟩
    intro a ha
    obtain ⟨v, hv, rfl⟩ := List.mem_map.mp ha
    exact hf v ((hu v).mp hv)

/-- No assignment is returned twice: the samples are distinct, and there are 2 to the number of variables. -/
theorem C57_once_partial (hne : ¬ Empty p) (hk : Keyed p) (h : (localSolve none p).run log = .ok res log') :
    (res.map (·.1)).Nodup ∧ (∀ r ∈ res, res.length = 2 ^ r.1.length) ∧
      ∀ r ∈ res, ∀ r' ∈ res, (∀ v, dget r.1 v = dget r'.1 v) → r = r' := by
  rw [localSolve_exact hne hk] at h
  cases h
  have hn := (p.toBqm (-1)).variables_nodup
  refine ⟨?_, ?_, ?_⟩
  · rw [List.map_map]
    exact (List.map_id _).symm ▸ allSamples_nodup _ _
  · intro r hr
    obtain ⟨s, hs, rfl⟩ := List.mem_map.mp hr
    obtain ⟨x, hx, rfl, _⟩ := (mem_allSamples _ _ s).mp hs
    rw [List.length_map, allSamples_length, List.length_zip, hx, Nat.min_self]
  · intro r hr r' hr' heq
    obtain ⟨s, hs, rfl⟩ := List.mem_map.mp hr
    obtain ⟨s', hs', rfl⟩ := List.mem_map.mp hr'
    obtain ⟨x, hx, rfl, _⟩ := (mem_allSamples _ _ s).mp hs
    obtain ⟨y, hy, rfl, _⟩ := (mem_allSamples _ _ s').mp hs'
    have hxy : x = y := by
      apply List.ext_getElem?
      intro i
      by_cases hi : i < (p.toBqm (-1)).variables.length
      · have h1 := dget_zip (x := x) hn (List.getElem?_eq_getElem hi)
        have h2 := dget_zip (x := y) hn (List.getElem?_eq_getElem hi)
        rw [← h1, ← h2]
        exact heq _
      · rw [List.getElem?_eq_none (by omega), List.getElem?_eq_none (by omega)]
    rw [hxy]

/-- So its best sample minimises the energy of the model over all assignments. -/
theorem C57_ground_state_partial (hne : ¬ Empty p) (hk : Keyed p) (h : (localSolve none p).run log = .ok res log') :
    ∃ best ∈ res, (∀ r ∈ res, best.2 ≤ r.2) ∧ best.2 = p.energy best.1.assign ∧
      ∀ f : String → ℤ, (∀ v, p.Uses v → p.mtype.vtype.Domain (f v)) → best.2 ≤ p.energy fun v => (f v : ℚ) := by
  obtain ⟨h1, h2⟩ := C57_all_assignments_partial hne hk h
  have hmin : ∀ res : List (Sample × ℚ), res ≠ [] → ∃ b ∈ res, ∀ r ∈ res, b.2 ≤ r.2 := by
    intro res
    induction res with
    | nil => intro h; exact absurd rfl h
    | cons r res ih =>
      intro _
      by_cases hr : res = []
      · subst hr; exact ⟨r, List.mem_cons_self, by simp⟩
      · obtain ⟨b, hb, hle⟩ := ih hr
        by_cases hc : r.2 ≤ b.2
        · exact ⟨r, List.mem_cons_self, fun x hx => by
            rcases List.mem_cons.mp hx with rfl | hx
            · exact le_refl _
            · exact le_trans hc (hle x hx)⟩
        · exact ⟨b, List.mem_cons_of_mem _ hb, fun x hx => by
            rcases List.mem_cons.mp hx with rfl | hx
            · exact (not_le.mp hc).le
            · exact hle x hx⟩
  have hone : ∃ a, p.mtype.vtype.Domain a := by
    cases p.mtype.vtype
    · exact ⟨1, .inl rfl⟩
    · exact ⟨1, .inr rfl⟩
  obtain ⟨a, ha⟩ := hone
  obtain ⟨r0, hr0, _⟩ := h2 (fun _ => a) (fun _ _ => ha)
  obtain ⟨best, hb, hle⟩ := hmin res (by rintro rfl; cases hr0)
  refine ⟨best, hb, hle, (h1 best hb).1, fun f hf => ?_⟩
  obtain ⟨r, hr, hget⟩ := h2 f hf
  refine le_trans (hle r hr) (le_of_eq ?_)
  rw [(h1 r hr).1]
  have hcongr : ∀ v, p.Uses v → r.1.assign v = (f v : ℚ) := by
    intro v hv
    unfold Sample.assign
    rw [hget v hv]; rfl
  unfold Physical.energy
  congr 1
  · congr 2
    apply List.map_congr_left
    intro kv hkv
    rw [hcongr kv.1 (.inl (List.mem_map.mpr ⟨_, hkv, rfl⟩))]
  · congr 1
    apply List.map_congr_left
    intro kv hkv
    rw [hcongr kv.1.1 (.inr ⟨kv.1, List.mem_map.mpr ⟨_, hkv, rfl⟩, .inl rfl⟩),
      hcongr kv.1.2 (.inr ⟨kv.1, List.mem_map.mpr ⟨_, hkv, rfl⟩, .inr rfl⟩)]

/-- The exact solver never raises for a non-empty model. -/
theorem C57_success_partial (hne : ¬ Empty p) (hk : Keyed p) : ∃ res log', (localSolve none p).run log = .ok res log' :=
  ⟨_, _, localSolve_exact hne hk⟩

theorem toPhysical_keyed {m m' : LModel} {env : Env} {clks : Nat → Nat → ℚ} {ids : Nat → String} {ph : List (String × ℚ)}
    (ho : AllOrdered m.rows) (hph : (ph.map (·.1)).Nodup) (h : (toPhysical env clks ids ph).run m = .ok p m') :
    Keyed p := by
  obtain ⟨h1, h2, h3, _⟩ := C26_no_duplicates ho hph h
  refine ⟨h1, h2, fun k hk => ?_⟩
  obtain ⟨t, ht, rfl⟩ := List.mem_map.mp hk
  exact h3 t ht

/-- For physical models made from logical models. -/
theorem C57_from_logical_partial {m m' : LModel} {env : Env} {clks : Nat → Nat → ℚ} {ids : Nat → String} {ph : List (String × ℚ)}
    (ho : AllOrdered m.rows) (hph : (ph.map (·.1)).Nodup) (h : (toPhysical env clks ids ph).run m = .ok p m')
    (hne : ¬ Empty p) : ∃ res log', (localSolve none p).run log = .ok res log' ∧ ∃ best ∈ res,
      best.2 = p.energy best.1.assign ∧
      ∀ f : String → ℤ, (∀ v, p.Uses v → p.mtype.vtype.Domain (f v)) → best.2 ≤ p.energy fun v => (f v : ℚ) := by
  have hk := toPhysical_keyed ho hph h
  obtain ⟨res, log', hr⟩ := C57_success_partial (log := log) hne hk
  obtain ⟨b, hb, _, h2, h3⟩ := C57_ground_state_partial hne hk hr
  exact ⟨res, log', hr, b, hb, h2, h3⟩

example : (match (localSolve none Ex.physIsing).run [] with
    | .ok l _ => l | .error _ _ => []) =
    [([("x[0]", -1), ("x[1]", -1)], 7), ([("x[0]", 1), ("x[1]", -1)], -7), ([("x[0]", -1), ("x[1]", 1)], 5),
     ([("x[0]", 1), ("x[1]", 1)], -5)] := by
  decide +kernel

/-! ## C58: Optigan -/

/-- The server reports, with each vector of bits (one for each index), the value of the polynomial it was sent. -/
def Honest (server : OptiganRequest → OptiganResponse) (n : Nat) : Prop := ∀ req, (server req).status = 200 ∧
  (∀ x ∈ (server req).spins, x.length = n ∧ ∀ a ∈ x, a = 0 ∨ a = 1) ∧
  (server req).energies = (server req).spins.map fun x => polyValue (fun i => ((x[i]?.getD 0 : ℤ) : ℚ)) req.polynomial

theorem optigan_ok {c : OptiganSolver} {server : OptiganRequest → OptiganResponse} {n t : Int} {d : Bool}
    {log log' : List OptiganRequest} (h : (optiganSolve c server p n t d).run log = .ok res log') :
    ∃ poly req, p.toPolynomial = .ok poly ∧ req.polynomial = poly ∧ p.mtype = .qubo ∧ log' = log ++ [req] ∧
      res = ((server req).spins.map fun x => decode p x).zip (server req).energies ∧ (server req).status = 200 ∧
      (server req).spins.length = (server req).energies.length ∧
      ∃ et, c.access = .ok et ∧ req = ⟨et.1, et.2, n, t, poly, d⟩ := by
  unfold optiganSolve at h
  simp only [Py.run_bind] at h
  cases he : p.isEmptyModel with
  | true => simp only [he, if_true, Py.run_throw] at h; cases h
  | false =>
    simp only [he, Bool.false_eq_true, if_false, Py.run_bind] at h
    by_cases hm : p.mtype = .ising
    · simp only [hm, if_true, Py.run_throw] at h; cases h
    · simp only [hm, if_false, Py.run_bind, Py.run_liftE] at h
      cases hp : p.toPolynomial with
      | error e => rw [hp] at h; cases h
      | ok poly =>
        rw [hp] at h
        simp only at h
        cases hac : c.access with
        | error e => rw [hac] at h; cases h
        | ok et =>
          rw [hac] at h
          simp only [Py.run_bind, Py.run_modify] at h
          by_cases hst : (server ⟨et.1, et.2, n, t, poly, d⟩).status = 200
          · simp only [hst, ne_eq, not_true_eq_false, if_false, Py.run_bind] at h
            by_cases hl : (server ⟨et.1, et.2, n, t, poly, d⟩).spins.length = (server ⟨et.1, et.2, n, t, poly, d⟩).energies.length
            · simp only [List.length_map, hl, ne_eq, not_true_eq_false, if_false] at h
              cases h
              refine ⟨poly, _, rfl, rfl, ?_, rfl, rfl, hst, hl, et, rfl, rfl⟩
              cases hmt : p.mtype with
              | ising => exact absurd hmt hm
              | qubo => rfl
            · simp only [List.length_map, hl, ne_eq, not_false_eq_true, if_true, Py.run_throw] at h
              cases h
          · simp only [hst, ne_eq, not_false_eq_true, if_true, Py.run_throw] at h
            cases h

/-- The `i`-th bit goes to the variable with index `i`; the reported energy is the energy of the sample minus the offset.
For every physical model made by `to_physical`, even if two arrays share a label. -/
theorem C58_decode {m m' : LModel} {env : Env} {clks : Nat → Nat → ℚ} {ids : Nat → String} {ph : List (String × ℚ)}
    (hc : (toPhysical env clks ids ph).run m = .ok p m') {c : OptiganSolver}
    {server : OptiganRequest → OptiganResponse} {n t : Int} {d : Bool} {log log' : List OptiganRequest}
    (hs : Honest server p.indexToLabel.length) (h : (optiganSolve c server p n t d).run log = .ok res log') :
    ∃ req, log' = log ++ [req] ∧ res.length = (server req).spins.length ∧
      ∀ (j : Nat) (r : Sample × ℚ) (x : List ℤ), res[j]? = some r → (server req).spins[j]? = some x →
        (∀ l i, dget p.labelToIndex l = some i → dget r.1 l = x[i]?) ∧ (∀ kv ∈ r.1, kv.2 = 0 ∨ kv.2 = 1) ∧
        r.2 = p.energy r.1.assign - p.offset := by
  obtain ⟨poly, req, h1, h2, h3, h4, rfl, h6, h7, _⟩ := optigan_ok h
  obtain ⟨_, hx, he⟩ := hs req
  refine ⟨req, h4, by simp [h7], fun j r x hr hxj => ?_⟩
  obtain ⟨hlen, hbits⟩ := hx x (List.mem_of_getElem? hxj)
  rw [List.getElem?_zip_eq_some, List.getElem?_map, hxj, he, List.getElem?_map, hxj] at hr
  obtain ⟨r1, r2⟩ := hr
  simp only [Option.map_some, Option.some.injEq] at r1 r2
  rw [← r1, ← r2, h2]
  have hget : ∀ l i, dget p.labelToIndex l = some i → dget (decode p x) l = x[i]? :=
    fun l i hl => (C29_decode hc x hlen l i hl).1
  have hmem : ∀ (z : List (String × ℤ)) (d : Sample), (∀ kv ∈ z, kv.2 = 0 ∨ kv.2 = 1) → (∀ kv ∈ d, kv.2 = 0 ∨ kv.2 = 1) →
      ∀ kv ∈ z.foldl (fun d kv => dset d kv.1 kv.2) d, kv.2 = 0 ∨ kv.2 = 1 := by
    intro z
    induction z with
    | nil => exact fun d _ h => h
    | cons q z ih =>
      intro d h1 h2
      refine ih _ (fun kv h => h1 kv (List.mem_cons_of_mem _ h)) fun kv h => ?_
      rcases mem_dset h with rfl | h
      · exact h1 q List.mem_cons_self
      · exact h2 kv h
  refine ⟨hget, hmem _ [] (fun kv hkv => hbits _ (List.of_mem_zip hkv).2) (by simp), ?_⟩
  refine C29_polynomial_energy h1 (fun i => ?_) fun l i hl => ?_
  · cases hxi : x[i]? with
    | none => left; rfl
    | some a =>
      rcases hbits a (List.mem_of_getElem? hxi) with rfl | rfl
      · left; rfl
      · right; rfl
  · unfold Sample.assign
    rw [hget l i hl]

/-- Without an offset the reported energies are those of the model. -/
theorem C58_energy_partial {m m' : LModel} {env : Env} {clks : Nat → Nat → ℚ} {ids : Nat → String} {ph : List (String × ℚ)}
    (hc : (toPhysical env clks ids ph).run m = .ok p m') {c : OptiganSolver}
    {server : OptiganRequest → OptiganResponse} {n t : Int} {d : Bool} {log log' : List OptiganRequest}
    (hs : Honest server p.indexToLabel.length) (h : (optiganSolve c server p n t d).run log = .ok res log') (h0 : p.offset = 0) :
    ∀ r ∈ res, r.2 = p.energy r.1.assign := by
  obtain ⟨req, _, hl, hr⟩ := C58_decode hc hs h
  intro r hm
  obtain ⟨j, hj, rfl⟩ := List.mem_iff_getElem.mp hm
  obtain ⟨_, _, he⟩ := hr j _ _ (List.getElem?_eq_getElem hj) (List.getElem?_eq_getElem (by omega))
  rw [he, h0, sub_zero]

/-- With access data and an honest server a non-empty QUBO model is solved by one request. -/
theorem C58_success {c : OptiganSolver} {server : OptiganRequest → OptiganResponse} {k : Nat} (hs : Honest server k)
    {poly : List (Nat × Nat × ℚ)} {et : String × String} (hne : ¬ Empty p) (hq : p.mtype = .qubo) (hpoly : p.toPolynomial = .ok poly)
    (hc : c.access = .ok et) (n t : Int) (d : Bool) (log : List OptiganRequest) :
    ∃ res, (optiganSolve c server p n t d).run log = .ok res (log ++ [⟨et.1, et.2, n, t, poly, d⟩]) := by
  have he : p.isEmptyModel = false := by
    cases hb : p.isEmptyModel with
    | false => rfl
    | true => exact absurd (empty_iff.mp hb) hne
  have hm : ¬ p.mtype = .ising := by rw [hq]; decide
  obtain ⟨h1, _, h3⟩ := hs ⟨et.1, et.2, n, t, poly, d⟩
  unfold optiganSolve
  simp only [he, Bool.false_eq_true, if_false, Py.run_bind, hm, hpoly, hc, Py.run_liftE, Py.run_modify, h1, h3, ne_eq,
    not_true_eq_false, List.length_map]
  exact ⟨_, rfl⟩

/-- An Ising model is rejected with ValueError before anything is sent. -/
theorem C58_ising (c : OptiganSolver) (server : OptiganRequest → OptiganResponse) (hq : p.mtype = .ising) (n t : Int) (d : Bool)
    (log : List OptiganRequest) : (optiganSolve c server p n t d).run log = .error .valueError log := by
  unfold optiganSolve
  cases he : p.isEmptyModel <;>
    simp only [if_true, Bool.false_eq_true, if_false, Py.run_bind, hq, Py.run_throw]

/-- The server of the example returns the best bits for the example model. -/
def Ex.server (req : OptiganRequest) : OptiganResponse :=
  ⟨200, [[1, 1, 0]], [polyValue (fun i => (([1, 1, 0][i]?.getD 0 : ℤ) : ℚ)) req.polynomial]⟩

theorem Ex.server_honest : Honest Ex.server 3 := by
  intro req
  refine ⟨rfl, ?_, rfl⟩
  intro x hx
  simp only [Ex.server, List.mem_singleton] at hx
  subst hx
  decide

/-- The reported energy is not the energy of the model unless the offset is 0: the energy here is 1, reported is -8. -/
theorem C58_offset_refuted :
    (match (optiganSolve ⟨some "e", some "t", none⟩ Ex.server Ex.physQubo 10 10000 false).run [] with
      | .ok l _ => l.map fun r => (r.2, Ex.physQubo.energy r.1.assign) | .error _ _ => []) = [(-8, 1)] := by
  decide +kernel

/-- Without endpoint, token and configuration file, `solve` of a convertible non-empty QUBO model raises
UnboundLocalError, and nothing is sent. -/
theorem C58_unbound {poly : List (Nat × Nat × ℚ)} (hne : ¬ Empty p) (hq : p.mtype = .qubo) (hpoly : p.toPolynomial = .ok poly)
    (server : OptiganRequest → OptiganResponse) (n t : Int) (d : Bool) (log : List OptiganRequest) :
    (optiganSolve ⟨none, none, none⟩ server p n t d).run log = .error .unboundLocalError log := by
  have he : p.isEmptyModel = false := by
    cases hb : p.isEmptyModel with
    | false => rfl
    | true => exact absurd (empty_iff.mp hb) hne
  have hm : ¬ p.mtype = .ising := by rw [hq]; decide
  have hacc : OptiganSolver.access ⟨none, none, none⟩ = .error .unboundLocalError := rfl
  unfold optiganSolve
  simp only [he, Bool.false_eq_true, if_false, Py.run_bind, hm, hpoly, hacc, Py.run_liftE]

example : ¬ Empty Ex.physQubo ∧ Ex.physQubo.mtype = .qubo ∧ Ex.physQubo.toPolynomial.toOption.isSome = true :=
  ⟨by unfold Empty; decide +kernel, by decide +kernel, by decide +kernel⟩

/-- Which access data is sent with a request: the given endpoint and token, if both are given and not empty; otherwise
those of the configuration file. -/
def Accesses (c : OptiganSolver) (e t : String) : Prop :=
  (c.endpoint = some e ∧ c.token = some t ∧ e ≠ "" ∧ t ≠ "") ∨
  ((c.endpoint = none ∨ c.endpoint = some "" ∨ c.token = none ∨ c.token = some "") ∧ c.config = some (e, t))

theorem access_iff {c : OptiganSolver} {e t : String} : c.access = .ok (e, t) ↔ Accesses c e t := by
  obtain ⟨ce, ct, cc⟩ := c
  unfold OptiganSolver.access Accesses
  rcases ce with _ | ce <;> rcases ct with _ | ct <;> rcases cc with _ | cc <;>
    simp [truthyStr] <;> by_cases h1 : ce = "" <;> by_cases h2 : ct = "" <;> simp_all <;>
    aesop

/-- Each request carries the access data, the parameters and the polynomial of the model. -/
theorem C58_access {c : OptiganSolver} {server : OptiganRequest → OptiganResponse} {n t : Int} {d : Bool}
    {log log' : List OptiganRequest} (h : (optiganSolve c server p n t d).run log = .ok res log') :
    ∃ req, log' = log ++ [req] ∧ Accesses c req.endpoint req.token ∧ req.numUnitSteps = n ∧ req.timeout = t ∧
      req.duplicate = d ∧ p.toPolynomial = .ok req.polynomial := by
  obtain ⟨poly, req, h1, _, _, h4, _, _, _, et, h8, rfl⟩ := optigan_ok h
  exact ⟨_, h4, access_iff.mp h8, rfl, rfl, rfl, h1⟩

example : Accesses ⟨some "e", none, some ("f", "g")⟩ "f" "g" ∧ ¬ Accesses ⟨some "e", none, none⟩ "e" "" ∧
    ((optiganSolve ⟨some "e", some "t", some ("f", "g")⟩ Ex.server Ex.physQubo 10 10000 false).run []).state.map
      (fun r => (r.endpoint, r.token)) = [("e", "t")] :=
  ⟨by simp [Accesses], by simp [Accesses], by decide +kernel⟩

end Sawatabi.Props
