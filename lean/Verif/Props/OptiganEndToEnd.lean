import Verif.Props.PhysicalMade
import Verif.Props.Penalty

/-!
# From public calls to the answers of Optigan (C130)

`C82` and `C83` for Optigan. The models are made by calls over their own variables (`OverUsable`, see `C25_made_partial`) in
which updates name only registered attribute keys (`KnownKeys`).
-/

namespace Sawatabi.Props

variable {m m' : LModel} {env env' : Env} {clks : Nat → Nat → ℚ} {ids : Nat → String} {ph : List (String × ℚ)} {p : Physical}
  {c : OptiganSolver} {server : OptiganRequest → OptiganResponse}

/-- The server's answers contain a best vector of bits for the polynomial it was sent. -/
def Optimal (server : OptiganRequest → OptiganResponse) (n : Nat) : Prop := ∀ req, ∃ x ∈ (server req).spins,
  ∀ y : List ℤ, y.length = n → (∀ a ∈ y, a = 0 ∨ a = 1) →
    polyValue (fun i => ((x[i]?.getD 0 : ℤ) : ℚ)) req.polynomial ≤ polyValue (fun i => ((y[i]?.getD 0 : ℤ) : ℚ)) req.polynomial

/-- The offset of the physical model is the objective where all variables are 0. -/
theorem offset_objective (hm : Made env KnownKeys m) (hq : m.mtype = .qubo) (hd : ∀ c ∈ m.constraints, c.2.Distinct)
    (h : (toPhysical env clks ids ph).run m = .ok p m') {ρ : PEnv} (hρ : ρ.Extends ph) :
    p.offset = objective m ρ fun _ => 0 := by
  have := energy_objective hm (.inr ⟨hq, hd⟩) h hρ (fun _ => 0) fun _ => by rw [hq]; exact .inl rfl
  simp only [Int.cast_zero] at this
  rw [← this]
  simp [Physical.energy]

/-- One request is sent, and each vector of bits in the answer comes back as a sample with a bit for every variable of the
physical model and with the objective of the logical model there, compared to that where all variables are 0. -/
theorem C130_optigan (hm : Made env KnownKeys m) (hu : Made env' (OverUsable env') m) (hq : m.mtype = .qubo)
    (hd : ∀ c ∈ m.constraints, c.2.Distinct) (h : (toPhysical env clks ids ph).run m = .ok p m') {ρ : PEnv}
    (hρ : ρ.Extends ph) (hne : ¬ Empty p) (hs : Honest server p.indexToLabel.length) {et : String × String}
    (hc : c.access = .ok et) (n t : Int) (d : Bool) (log : List OptiganRequest) :
    ∃ req res, (optiganSolve c server p n t d).run log = .ok res (log ++ [req]) ∧
      res.length = (server req).spins.length ∧
      ∀ r ∈ res, (∀ v, p.Uses v → v ∈ dkeys r.1) ∧ (∀ kv ∈ r.1, kv.2 = 0 ∨ kv.2 = 1) ∧
        ∀ f : String → ℤ, (∀ v, f v = 0 ∨ f v = 1) →
          r.2 = objective m ρ (fun v => (complete f r.1 v : ℚ)) - objective m ρ fun _ => 0 := by
  obtain ⟨hidx, poly, hpoly⟩ := C25_made_partial hu h
  have hqp : p.mtype = .qubo := by rw [physical_mtype h, hq]
  obtain ⟨res, hres⟩ := C58_success hs hne hqp hpoly hc n t d log
  refine ⟨_, res, hres, ?_⟩
  obtain ⟨req, hreq, hlen, hr⟩ := C58_decode h hs hres
  obtain rfl : (⟨et.1, et.2, n, t, poly, d⟩ : OptiganRequest) = req := by simpa using hreq
  refine ⟨hlen, fun r hmem => ?_⟩
  obtain ⟨j, hj, rfl⟩ := List.mem_iff_getElem.mp hmem
  obtain ⟨h1, h2, h3⟩ := hr j _ _ (List.getElem?_eq_getElem hj) (List.getElem?_eq_getElem (by omega))
  have huse : ∀ v, p.Uses v → v ∈ dkeys (res[j]).1 := by
    intro v hv
    obtain ⟨i, hi⟩ := hidx v ((varsSet_iff h v).mpr hv)
    obtain ⟨_, b, hb⟩ := C29_decode h _ ((hs _).2.1 _ (List.getElem_mem _)).1 v i hi
    refine (dget_isSome_iff _ v).mp ⟨b, ?_⟩
    rw [h1 v i hi]
    exact hb
  refine ⟨huse, h2, fun f hf => ?_⟩
  have hdom : ∀ v, m.mtype.vtype.Domain (complete f (res[j]).1 v) := by
    rw [hq]
    exact complete_domain (vt := .binary) h2 hf
  rw [h3, energy_complete f huse, energy_objective hm (.inr ⟨hq, hd⟩) h hρ _ hdom, offset_objective hm hq hd h hρ]

/-- If the server finds a best vector of bits, then the samples with the least reported energy are those that minimise the
objective of the logical model over all assignments of its variables, and there is one. -/
theorem C130_best (hm : Made env KnownKeys m) (hu : Made env' (OverUsable env') m) (hq : m.mtype = .qubo)
    (hd : ∀ c ∈ m.constraints, c.2.Distinct) (h : (toPhysical env clks ids ph).run m = .ok p m') {ρ : PEnv}
    (hρ : ρ.Extends ph) (hne : ¬ Empty p) (hs : Honest server p.indexToLabel.length)
    (ho : Optimal server p.indexToLabel.length) {et : String × String}
    (hc : c.access = .ok et) (n t : Int) (d : Bool) (log : List OptiganRequest) :
    ∃ req res, (optiganSolve c server p n t d).run log = .ok res (log ++ [req]) ∧ (∃ best ∈ res, ∀ r ∈ res, best.2 ≤ r.2) ∧
      ∀ best ∈ res, (∀ r ∈ res, best.2 ≤ r.2) ↔ ∀ f : String → ℤ, (∀ v, f v = 0 ∨ f v = 1) →
        IsMinimiser (objective m ρ) fun v => (complete f best.1 v : ℚ) := by
  obtain ⟨req, res, hres, hlen, hr⟩ := C130_optigan hm hu hq hd h hρ hne hs hc n t d log
  obtain ⟨poly, req', hpoly, hreq, _, hl, hz, _, hl2, _⟩ := optigan_ok hres
  obtain rfl : req = req' := by simpa using hl
  refine ⟨req, res, hres, ?_⟩
  -- the least reported energy is at most the objective of any assignment
  obtain ⟨x, hx, hmin⟩ := ho req
  have hbest : ∃ best ∈ res, ∀ g : Assign, g.IsBinary → best.2 ≤ objective m ρ g - objective m ρ fun _ => 0 := by
    obtain ⟨j, hj, rfl⟩ := List.mem_iff_getElem.mp hx
    have hj' : j < res.length := by omega
    refine ⟨res[j], List.getElem_mem _, fun g hg => ?_⟩
    have he : (res[j]).2 = polyValue (fun i => (((server req).spins[j][i]?.getD 0 : ℤ) : ℚ)) req.polynomial := by
      have h3 := (hs req).2.2
      subst hz
      simp only [List.getElem_zip, h3, List.getElem_map]
    rw [he]
    let f : String → ℤ := fun v => if g v = 0 then 0 else 1
    have hfg : ∀ v, ((f v : ℤ) : ℚ) = g v := by
      intro v
      simp only [f]
      rcases hg v with h0 | h1
      · simp [h0]
      · simp [h1]
    have hf : ∀ v, f v = 0 ∨ f v = 1 := fun v => by
      simp only [f]
      split <;> simp
    have hy := hmin ((p.indexToLabel.map (·.2)).map f) (by simp) (by
      intro a ha
      obtain ⟨v, _, rfl⟩ := List.mem_map.mp ha
      exact hf v)
    refine hy.trans (le_of_eq ?_)
    rw [hreq, C29_polynomial_energy hpoly (σ := fun v => (f v : ℚ)) (fun i => ?_) fun l i hi => ?_,
      energy_objective hm (.inr ⟨hq, hd⟩) h hρ f (fun v => by rw [hq]; exact hf v), offset_objective hm hq hd h hρ]
    · congr 2
      exact funext hfg
    · cases hi : ((p.indexToLabel.map (·.2)).map f)[i]? with
      | none => left; rfl
      | some a =>
        obtain ⟨v, _, rfl⟩ := List.mem_map.mp (List.mem_of_getElem? hi)
        rcases hf v with h0 | h0 <;> simp [h0]
    · rw [index_values h, List.getElem?_map, ((C24_exact h l i).2.mp hi).1]
      rfl
  obtain ⟨b, hb, hball⟩ := hbest
  have hbin : ∀ r ∈ res, ∀ f : String → ℤ, (∀ v, f v = 0 ∨ f v = 1) →
      Assign.IsBinary fun v => (complete f r.1 v : ℚ) := by
    intro r hr0 f hf v
    rcases complete_domain (vt := .binary) (hr r hr0).2.1 hf v with h0 | h0 <;> simp [h0]
  have h01 : ∀ v : String, (fun _ => 0 : String → ℤ) v = 0 ∨ (fun _ => 0 : String → ℤ) v = 1 := fun _ => .inl rfl
  have hle : ∀ r ∈ res, b.2 ≤ r.2 := fun r hr0 => by
    rw [(hr r hr0).2.2 _ h01]
    exact hball _ (hbin r hr0 _ h01)
  refine ⟨⟨b, hb, hle⟩, fun best hbest => ⟨fun hm f hf g hg => ?_, fun hm r hr0 => ?_⟩⟩
  · have h1 := hm b hb
    have h2 := hball g hg
    have h3 := (hr best hbest).2.2 f hf
    linarith
  · rw [(hr r hr0).2.2 _ h01, (hr best hbest).2.2 _ h01]
    exact sub_le_sub_right (hm _ h01 _ (hbin r hr0 _ h01)) _

/-- If moreover each constraint is stronger than every difference of logical energies, and can be satisfied together with the
others, then the samples with the least reported energy are best among the assignments that satisfy all constraints. -/
theorem C130_strong (hm : Made env KnownKeys m) (hu : Made env' (OverUsable env') m) (hq : m.mtype = .qubo)
    (hd : ∀ c ∈ m.constraints, c.2.Distinct) (h : (toPhysical env clks ids ph).run m = .ok p m') {ρ : PEnv}
    (hρ : ρ.Extends ph) (hne : ¬ Empty p) (hs : Honest server p.indexToLabel.length)
    (ho : Optimal server p.indexToLabel.length) {et : String × String} (hc : c.access = .ok et) (hst : Strong m ρ) {τ : Assign}
    (hb : τ.IsBinary) (hf : Feasible m τ) (n t : Int) (d : Bool) (log : List OptiganRequest) :
    ∃ req res, (optiganSolve c server p n t d).run log = .ok res (log ++ [req]) ∧ (∃ best ∈ res, ∀ r ∈ res, best.2 ≤ r.2) ∧
      ∀ best ∈ res, (∀ r ∈ res, best.2 ≤ r.2) → ∀ f : String → ℤ, (∀ v, f v = 0 ∨ f v = 1) →
        Feasible m (fun v => (complete f best.1 v : ℚ)) ∧
        ∀ τ' : Assign, τ'.IsBinary → Feasible m τ' → m.energy ρ (fun v => (complete f best.1 v : ℚ)) ≤ m.energy ρ τ' := by
  obtain ⟨req, res, h1, h2, h3⟩ := C130_best hm hu hq hd h hρ hne hs ho hc n t d log
  obtain ⟨req', res', h1', _, h4⟩ := C130_optigan hm hu hq hd h hρ hne hs hc n t d log
  obtain ⟨rfl, _⟩ : res = res' ∧ _ := by
    rw [h1] at h1'
    injection h1' with e1 e2
    exact ⟨e1, e2⟩
  refine ⟨req, res, h1, h2, fun best hbest hmin f hf' => ?_⟩
  refine (C83_minimisers hst hb hf fun v => ?_).mp ((h3 best hbest).mp hmin f hf')
  rcases complete_domain (vt := .binary) (h4 best hbest).2.1 hf' v with h0 | h0 <;> simp [h0]

/-- A server that answers with all vectors of two bits. -/
def Ex.all2 (req : OptiganRequest) : OptiganResponse :=
  let xs : List (List ℤ) := [[0, 0], [0, 1], [1, 0], [1, 1]]
  ⟨200, xs, xs.map fun x => polyValue (fun i => ((x[i]?.getD 0 : ℤ) : ℚ)) req.polynomial⟩

theorem Ex.all2_honest : Honest Ex.all2 2 := fun _ => ⟨rfl, by simp only [Ex.all2]; decide, rfl⟩

theorem Ex.all2_optimal : Optimal Ex.all2 2 := by
  intro req
  have hmin : ∀ (F : List ℤ → ℚ) (l : List (List ℤ)), l ≠ [] → ∃ b ∈ l, ∀ r ∈ l, F b ≤ F r := by
    intro F l hl
    induction l with
    | nil => exact absurd rfl hl
    | cons r l ih =>
      by_cases hr : l = []
      · subst hr; exact ⟨r, List.mem_cons_self, by simp⟩
      · obtain ⟨b, hb, hle⟩ := ih hr
        rcases le_total (F r) (F b) with hc | hc
        · exact ⟨r, List.mem_cons_self, List.forall_mem_cons.mpr ⟨le_refl _, fun x hx => hc.trans (hle x hx)⟩⟩
        · exact ⟨b, List.mem_cons_of_mem _ hb, List.forall_mem_cons.mpr ⟨hc, hle⟩⟩
  obtain ⟨x, hx, hle⟩ := hmin (fun x => polyValue (fun i => ((x[i]?.getD 0 : ℤ) : ℚ)) req.polynomial)
    [[0, 0], [0, 1], [1, 0], [1, 1]] (by simp)
  refine ⟨x, hx, fun y hy hb => hle y ?_⟩
  match y, hy with
  | [a, b], _ =>
    rcases hb a (by simp) with rfl | rfl <;> rcases hb b (by simp) with rfl | rfl <;> simp

/-- The model of `C25_made_partial`: of `x[0]` and `x[1]` one is chosen, although both together have less energy. -/
example : Made ⟨0, fun _ => "t"⟩ KnownKeys (Ex.usable 4) ∧ (Ex.usable 4).mtype = .qubo ∧
    (∀ c ∈ (Ex.usable 4).constraints, c.2.Distinct) ∧
    ∃ p m', (toPhysical ⟨0, fun _ => "t"⟩ (fun _ _ => 0) (fun _ => "2") []).run (Ex.usable 4) = .ok p m' ∧ ¬ Empty p ∧
      p.indexToLabel.length = 2 ∧ (match (optiganSolve ⟨some "e", some "t", none⟩ Ex.all2 p 10 10000 false).run [] with
        | .ok l _ => l | .error _ _ => []) = [([("x[0]", 0), ("x[1]", 0)], 0), ([("x[0]", 0), ("x[1]", 1)], -3),
          ([("x[0]", 1), ("x[1]", 0)], -3), ([("x[0]", 1), ("x[1]", 1)], -2)] := by
  refine ⟨made_ops _ (.new _ _) (by simp [Ex.usableOps, Ex.usableAdd, Ex.usableCon]) fun _ op h => ?_, by decide +kernel, ?_,
    _, _, rfl, ?_, by decide +kernel, by decide +kernel⟩
  · simp only [Ex.usableOps, List.take, Ex.usableAdd, Ex.usableCon, List.mem_cons, List.not_mem_nil, or_false] at h
    rcases h with rfl | rfl | rfl | rfl <;> trivial
  · have : (Ex.usable 4).constraints = [("one", .nHot "one" 3 [⟨.binary, "x[0]"⟩, ⟨.binary, "x[1]"⟩] 1)] := by decide +kernel
    rw [this]
    simp only [List.mem_singleton]
    rintro c rfl
    unfold Constraint.Distinct
    decide
  · unfold Empty; decide +kernel

/-- The constraint of the model is strong enough, and can be satisfied. -/
example : Strong (Ex.usable 4) (fun _ => 0) ∧ Feasible (Ex.usable 4) fun v => if v = "x[1]" then 1 else 0 := by
  have hc : (Ex.usable 4).constraints = [("one", .nHot "one" 3 [⟨.binary, "x[0]"⟩, ⟨.binary, "x[1]"⟩] 1)] := by decide +kernel
  have he : ∀ σ : Assign, (Ex.usable 4).energy (fun _ => 0) σ = - (2 * (σ "x[0]" * σ "x[1]")) := by
    intro σ
    have h1 : (Ex.usable 4).rows.map (fun r => (r.removed, r.coef, r.scale, r.inter)) =
        [(false, .num 2, .num 1, .quad ⟨.binary, "x[0]"⟩ ⟨.binary, "x[1]"⟩)] := by decide +kernel
    have h2 : (Ex.usable 4).offset = .num 0 := by decide +kernel
    have h3 : (Ex.usable 4).rows.map (Row.term (fun _ => 0) σ) =
        ((Ex.usable 4).rows.map fun r => (r.removed, r.coef, r.scale, r.inter)).map fun t =>
          if t.1 then 0 else t.2.1.eval (fun _ => 0) * t.2.2.1.eval (fun _ => 0) * t.2.2.2.value σ := by
      rw [List.map_map]; rfl
    unfold LModel.energy
    rw [h3, h1, h2]
    simp [Coef.eval, Inter.value]
  refine ⟨fun c hcm σ τ hσ hτ => ?_, fun c hcm => ?_⟩
  · rw [hc, List.mem_singleton] at hcm
    subst hcm
    rw [he, he]
    simp only [Constraint.weight]
    rcases hσ "x[0]" with h | h <;> rcases hτ "x[0]" with h' | h' <;> rcases hσ "x[1]" with h1 | h1 <;>
      rcases hτ "x[1]" with h2 | h2 <;> rw [h, h', h1, h2] <;> norm_num
  · rw [hc, List.mem_singleton] at hcm
    subst hcm
    simp only [Constraint.Satisfied]
    decide +kernel

end Sawatabi.Props
