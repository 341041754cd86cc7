import Verif.Spec.PhysicalCalls
import Verif.Props.SolverMade

/-!
# Lemmas: physical models that are written by hand
-/

namespace Sawatabi

/-! ## Calls -/

/-- The coefficients are dictionaries. -/
structure Physical.Dicts (p : Physical) : Prop where
  linear : (dkeys p.linear).Nodup
  quad : (dkeys p.quad).Nodup

theorem PhysCall.run_dicts (c : PhysCall) {p : Physical} (h : p.Dicts) : (c.run.run p).state.Dicts := by
  cases c with
  | linear l c => exact ⟨nodup_dset c h.linear, h.quad⟩
  | quadratic a b c => exact ⟨h.linear, nodup_dset c h.quad⟩
  | other => exact h

theorem after_dicts (calls : List PhysCall) {p : Physical} (h : p.Dicts) : (p.after calls).Dicts := by
  induction calls generalizing p with
  | nil => exact h
  | cons c calls ih => exact ih (c.run_dicts h)

theorem new_dicts (t : MType) : (Physical.new t).Dicts := ⟨List.nodup_nil, List.nodup_nil⟩

theorem byHand_dicts {p : Physical} (h : p.ByHand) : p.Dicts := by
  obtain ⟨p₀, calls, h | h, rfl⟩ := h
  · obtain ⟨t, rfl⟩ := h
    exact after_dicts calls (new_dicts t)
  · have := Props.fromCalls_keyed h
    exact after_dicts calls ⟨this.linear, this.quad⟩

theorem after_rest (calls : List PhysCall) (p : Physical) : (p.after calls).mtype = p.mtype ∧
    (p.after calls).offset = p.offset ∧ (p.after calls).varsSet = p.varsSet ∧
    (p.after calls).labelToIndex = p.labelToIndex ∧ (p.after calls).indexToLabel = p.indexToLabel := by
  induction calls generalizing p with
  | nil => exact ⟨rfl, rfl, rfl, rfl, rfl⟩
  | cons c calls ih =>
    obtain ⟨h1, h2, h3, h4, h5⟩ := ih (c.run.run p).state
    have : (p.after (c :: calls)) = (c.run.run p).state.after calls := rfl
    rw [this, h1, h2, h3, h4, h5]
    cases c <;> exact ⟨rfl, rfl, rfl, rfl, rfl⟩

theorem after_linear (calls : List PhysCall) (p : Physical) (l : String) :
    dget (p.after calls).linear l = PhysCall.lastLinear l calls (dget p.linear l) := by
  induction calls generalizing p with
  | nil => rfl
  | cons c calls ih =>
    have : (p.after (c :: calls)) = (c.run.run p).state.after calls := rfl
    rw [this, ih]
    cases c with
    | linear l' c =>
      simp only [PhysCall.lastLinear]
      congr 1
      change dget (dset p.linear l' c) l = _
      split
      · rename_i h; rw [h, dget_dset_self]
      · rename_i h; rw [dget_dset_ne _ _ fun e => h e.symm]
    | quadratic a b c => rfl
    | other => rfl

theorem after_quad (calls : List PhysCall) (p : Physical) (a b : String) :
    dget (p.after calls).quad (a, b) = PhysCall.lastPair a b calls (dget p.quad (a, b)) := by
  induction calls generalizing p with
  | nil => rfl
  | cons c calls ih =>
    have : (p.after (c :: calls)) = (c.run.run p).state.after calls := rfl
    rw [this, ih]
    cases c with
    | quadratic a' b' c =>
      simp only [PhysCall.lastPair]
      congr 1
      change dget (dset p.quad (a', b') c) (a, b) = _
      split
      · rename_i h; rw [h.1, h.2, dget_dset_self]
      · rename_i h; rw [dget_dset_ne _ _ fun e => h ⟨(congrArg Prod.fst e).symm, (congrArg Prod.snd e).symm⟩]
    | linear l c => rfl
    | other => rfl

/-! ## The constructor of dimod -/

theorem orient_lt {k : String × String} (h : k.1 ≠ k.2) : (orient k).1 < (orient k).2 := by
  unfold orient
  split
  · assumption
  · rename_i h'
    exact lt_of_le_of_ne (not_lt.mp h') fun e => h e.symm

theorem orient_mem (k : String × String) (v : String) : ((orient k).1 = v ∨ (orient k).2 = v) ↔ (k.1 = v ∨ k.2 = v) := by
  unfold orient
  split
  · rfl
  · exact or_comm

theorem orient_prod (k : String × String) (σ : Assign) : σ (orient k).1 * σ (orient k).2 = σ k.1 * σ k.2 := by
  unfold orient
  split
  · rfl
  · exact mul_comm _ _

theorem orient_of_lt {k : String × String} (h : k.1 < k.2) : orient k = k := if_pos h

/-- The sum of a quadratic part. -/
def quadSum (σ : Assign) (q : List ((String × String) × ℚ)) : ℚ := (q.map fun kv => kv.2 * (σ kv.1.1 * σ kv.1.2)).sum

theorem quadSum_add (σ : Assign) (q : List ((String × String) × ℚ)) (k : String × String) (c : ℚ) :
    quadSum σ (dset q k ((dget q k).getD 0 + c)) = quadSum σ q + c * (σ k.1 * σ k.2) := by
  unfold quadSum
  cases h : dget q k with
  | none =>
    rw [dset_of_not_mem _ ((dget_eq_none_iff q k).mp h)]
    simp
  | some x =>
    have := sum_dset (fun k : String × String => σ k.1 * σ k.2) h (x + c)
    simp only [Option.getD_some]
    rw [this]
    ring

theorem dimod_fold (l : List ((String × String) × ℚ)) (q₀ : List ((String × String) × ℚ))
    (hl : ∀ kv ∈ l, kv.1.1 ≠ kv.1.2) (hn : (dkeys q₀).Nodup) (ho : ∀ k ∈ dkeys q₀, k.1 < k.2) :
    ∃ q, l.foldlM dimodAdd q₀ = .ok q ∧ (dkeys q).Nodup ∧ (∀ k ∈ dkeys q, k.1 < k.2) ∧
      (∀ σ, quadSum σ q = quadSum σ q₀ + quadSum σ l) ∧
      ∀ k, k ∈ dkeys q ↔ k ∈ dkeys q₀ ∨ ∃ k' ∈ dkeys l, orient k' = k := by
  induction l generalizing q₀ with
  | nil => exact ⟨q₀, rfl, hn, ho, fun σ => by simp [quadSum], fun k => by simp [dkeys]⟩
  | cons kv l ih =>
    have hne := hl kv List.mem_cons_self
    have hstep : dimodAdd q₀ kv = .ok (dset q₀ (orient kv.1) ((dget q₀ (orient kv.1)).getD 0 + kv.2)) := if_neg hne
    obtain ⟨q, h1, h2, h3, h4, h5⟩ := ih (dset q₀ (orient kv.1) ((dget q₀ (orient kv.1)).getD 0 + kv.2))
      (fun kv h => hl kv (List.mem_cons_of_mem _ h)) (nodup_dset _ hn) fun k hk => by
        rcases (mem_dkeys_dset _).mp hk with rfl | hk
        · exact orient_lt hne
        · exact ho k hk
    refine ⟨q, by rw [List.foldlM_cons, hstep]; exact h1, h2, h3, fun σ => ?_, fun k => ?_⟩
    · rw [h4, quadSum_add, orient_prod]
      simp only [quadSum, List.map_cons, List.sum_cons]
      ring
    · rw [h5, mem_dkeys_dset]
      simp only [dkeys, List.map_cons, List.mem_cons, exists_eq_or_imp]
      constructor
      · rintro ((h | h) | h)
        · exact .inr (.inl h.symm)
        · exact .inl h
        · exact .inr (.inr h)
      · rintro (h | h | h)
        · exact .inl (.inr h)
        · exact .inl (.inl h.symm)
        · exact .inr h

theorem dimod_fold_error (l : List ((String × String) × ℚ)) (q₀ : List ((String × String) × ℚ)) {kv : (String × String) × ℚ}
    (hm : kv ∈ l) (he : kv.1.1 = kv.1.2) : l.foldlM dimodAdd q₀ = .error .valueError := by
  induction l generalizing q₀ with
  | nil => cases hm
  | cons x l ih =>
    rw [List.foldlM_cons]
    by_cases hx : x.1.1 = x.1.2
    · have : dimodAdd q₀ x = .error .valueError := if_pos hx
      rw [this]
      rfl
    · have : dimodAdd q₀ x = .ok _ := if_neg hx
      rw [this]
      rcases List.mem_cons.mp hm with rfl | hm
      · exact absurd he hx
      · exact ih _ hm

theorem dset_map_mul (s : ℚ) (q : List ((String × String) × ℚ)) (k : String × String) (v : ℚ) :
    dset (q.map fun kv => (kv.1, s * kv.2)) k (s * v) = (dset q k v).map fun kv => (kv.1, s * kv.2) := by
  induction q with
  | nil => rfl
  | cons x q ih =>
    simp only [List.map_cons, dset]
    split
    · rfl
    · rw [ih]; rfl

theorem dget_map_mul (s : ℚ) (q : List ((String × String) × ℚ)) (k : String × String) :
    (dget (q.map fun kv => (kv.1, s * kv.2)) k).getD 0 = s * (dget q k).getD 0 := by
  induction q with
  | nil => simp [dget]
  | cons x q ih =>
    simp only [List.map_cons, dget]
    split
    · rfl
    · exact ih

theorem dimod_fold_mul (s : ℚ) (l : List ((String × String) × ℚ)) (q₀ : List ((String × String) × ℚ)) :
    (l.map fun kv => (kv.1, s * kv.2)).foldlM dimodAdd (q₀.map fun kv => (kv.1, s * kv.2)) =
      (l.foldlM dimodAdd q₀).map fun q => q.map fun kv => (kv.1, s * kv.2) := by
  induction l generalizing q₀ with
  | nil => rfl
  | cons kv l ih =>
    rw [List.map_cons, List.foldlM_cons, List.foldlM_cons]
    by_cases h : kv.1.1 = kv.1.2
    · have h1 : dimodAdd q₀ kv = .error .valueError := if_pos h
      have h2 : dimodAdd (q₀.map fun kv => (kv.1, s * kv.2)) (kv.1, s * kv.2) = .error .valueError := if_pos h
      rw [h1, h2]
      rfl
    · have h1 : dimodAdd q₀ kv = .ok _ := if_neg h
      have h2 : dimodAdd (q₀.map fun kv => (kv.1, s * kv.2)) (kv.1, s * kv.2) = .ok _ := if_neg h
      rw [h1, h2]
      change _ = (l.foldlM dimodAdd _).map _
      rw [← ih, ← dset_map_mul, dget_map_mul, mul_add]
      rfl

/-- The model with its pairs put in order and added up. -/
def Physical.merged (p : Physical) (q : List ((String × String) × ℚ)) : Physical := { p with quad := q }

theorem anyBqm_eq (s : ℚ) (p : Physical) :
    p.anyBqm s = (p.quad.foldlM dimodAdd []).map fun q => (p.merged q).toBqm s := by
  unfold Physical.anyBqm dimodModel
  have := dimod_fold_mul s p.quad []
  rw [List.map_nil] at this
  have h : (p.toBqm s).quad = p.quad.map fun kv => (kv.1, s * kv.2) := rfl
  rw [h, this]
  cases p.quad.foldlM dimodAdd [] with
  | error e => rfl
  | ok q => rfl

/-- What the constructor of dimod makes of a physical model. -/
structure Physical.Merges (p p' : Physical) : Prop where
  same : p' = p.merged p'.quad
  fold : p.quad.foldlM dimodAdd [] = .ok p'.quad
  keyed : Props.Keyed p'
  energy : ∀ σ, p'.energy σ = p.energy σ
  occurs : ∀ l, p'.Uses l ↔ p.Uses l
  empty : Props.Empty p' ↔ Props.Empty p

theorem loop_iff {p : Physical} (hd : p.Dicts) : p.LoopFree ↔ ∀ kv ∈ p.quad, kv.1.1 ≠ kv.1.2 := by
  constructor
  · intro h kv hm e
    have := dget_of_mem hd.quad (show ((kv.1.1, kv.1.2), kv.2) ∈ p.quad from hm)
    rw [← e, h] at this
    cases this
  · intro h a
    cases hg : dget p.quad (a, a) with
    | none => rfl
    | some c => exact absurd rfl (h _ (dget_mem hg))

theorem merges_of {p : Physical} (hd : p.Dicts) (hl : p.LoopFree) : ∃ p', p.Merges p' := by
  obtain ⟨q, h1, h2, h3, h4, h5⟩ := dimod_fold p.quad [] ((loop_iff hd).mp hl) List.nodup_nil (by simp [dkeys])
  have h5 : ∀ k, k ∈ dkeys q ↔ ∃ k' ∈ dkeys p.quad, orient k' = k := fun k => by
    rw [h5]; simp [dkeys]
  refine ⟨p.merged q, rfl, h1, ⟨hd.linear, h2, h3⟩, fun σ => ?_, fun l => ?_, ?_⟩
  · have := h4 σ
    simp only [quadSum, List.map_nil, List.sum_nil, zero_add] at this
    unfold Physical.energy Physical.merged
    simp only
    rw [this]
  · unfold Physical.Uses Physical.merged
    simp only
    refine or_congr Iff.rfl ?_
    constructor
    · rintro ⟨k, hk, h⟩
      obtain ⟨k', hk', rfl⟩ := (h5 k).mp hk
      exact ⟨k', hk', (orient_mem k' l).mp h⟩
    · rintro ⟨k, hk, h⟩
      exact ⟨orient k, (h5 _).mpr ⟨k, hk, rfl⟩, (orient_mem k l).mpr h⟩
  · unfold Props.Empty Physical.merged
    simp only
    refine and_congr Iff.rfl ?_
    constructor
    · intro h
      subst h
      cases hq : p.quad with
      | nil => rfl
      | cons kv l =>
        have := (h5 (orient kv.1)).mpr ⟨kv.1, by rw [hq]; exact List.mem_cons_self, rfl⟩
        cases this
    · intro h
      rw [h] at h1
      exact (Except.ok.inj h1).symm

theorem Physical.Merges.bqm {p p' : Physical} (h : p.Merges p') (s : ℚ) : p.anyBqm s = .ok (p'.toBqm s) := by
  rw [anyBqm_eq, h.fold, h.same]
  rfl

theorem looped_bqm {p : Physical} {a : String} {c : ℚ} (h : dget p.quad (a, a) = some c) (s : ℚ) :
    p.anyBqm s = .error .valueError := by
  rw [anyBqm_eq, dimod_fold_error p.quad [] (dget_mem h) rfl]
  rfl

/-! ## The solvers -/

theorem merges_emptyModel {p p' : Physical} (h : p.Merges p') : p.isEmptyModel = p'.isEmptyModel := by
  have h1 := Props.empty_iff (p := p)
  have h2 := Props.empty_iff (p := p')
  have h3 := h.empty
  cases e : p.isEmptyModel <;> cases e' : p'.isEmptyModel
  · rfl
  · rw [e] at h1; rw [e'] at h2; exact h1.mpr (h3.mp (h2.mp rfl))
  · rw [e] at h1; rw [e'] at h2; exact (h2.mpr (h3.mpr (h1.mp rfl))).symm
  · rfl

theorem anyLocalSolve_eq {p p' : Physical} (h : p.Merges p') (sampler : Option (Bqm → Except Err (List (Sample × ℚ))))
    (log : List Bqm) : (anyLocalSolve sampler p).run log = (localSolve sampler p').run log := by
  unfold anyLocalSolve localSolve
  rw [merges_emptyModel h, h.bqm]
  cases p'.isEmptyModel with
  | true => rfl
  | false =>
    simp only [Bool.false_eq_true, if_false, Py.run_bind, Py.run_liftE]
    cases sampler <;> rfl

theorem anyDwaveSolve_eq {p p' : Physical} (h : p.Merges p') (composite : Bqm → Except Err (List (Sample × ℚ)))
    (log : List Bqm) : (anyDwaveSolve composite p).run log = (dwaveSolve composite p').run log := by
  unfold anyDwaveSolve dwaveSolve
  rw [merges_emptyModel h, h.bqm]
  cases p'.isEmptyModel with
  | true => rfl
  | false => simp only [Bool.false_eq_true, if_false, Py.run_bind, Py.run_liftE]

theorem annealing_model {γ : Type} (rng : Rng γ) (exp : ℚ → Except Err ℚ) (s : Problem) (o : Options) (st : Option Sample)
    (g : γ) (q : List ((String × String) × ℚ)) :
    annealing rng exp { s with model := s.model.merged q } o st g = annealing rng exp s o st g := rfl

theorem reads_model {γ : Type} (rng : Rng γ) (exp : ℚ → Except Err ℚ) (s : Problem) (o : Options)
    (init : Option (List Sample)) (q : List ((String × String) × ℚ)) (rs : List Nat) (g : γ) :
    reads rng exp { s with model := s.model.merged q } o init rs g = reads rng exp s o init rs g := by
  induction rs generalizing g with
  | nil => rfl
  | cons r rs ih =>
    simp only [reads, annealing_model, ih]

theorem anyPrepare_eq {p p' : Physical} (h : p.Merges p') :
    prepare p' = (anyPrepare p (p'.toBqm 1)).map fun s => { s with model := s.model.merged p'.quad } := by
  unfold anyPrepare prepare
  have h1 : ∀ b, linearArray p' b = linearArray p b := fun b => by rw [h.same]; rfl
  have h2 : ∀ b, adjArray p' b = adjArray p b := fun b => by rw [h.same]; rfl
  simp only [h1, h2]
  cases linearArray p (if (p'.toBqm 1).vartype ≠ .spin then (p'.toBqm 1).toSpin else p'.toBqm 1) with
  | error e => rfl
  | ok l =>
    simp only [Except.bind_ok]
    cases adjArray p (if (p'.toBqm 1).vartype ≠ .spin then (p'.toBqm 1).toSpin else p'.toBqm 1) with
    | error e => rfl
    | ok a =>
      simp only [Except.bind_ok]
      rw [Except.pure_ok, Except.pure_ok]
      change Except.ok (Problem.mk p' _ _ _ _) = Except.ok (Problem.mk (p.merged p'.quad) _ _ _ _)
      rw [← h.same]

theorem anySolve_eq {γ : Type} {rng : Rng γ} {seeded : Nat → γ} {fresh : γ} {exp : ℚ → Except Err ℚ} {p p' : Physical}
    {numReads : Int} {o : Options} {seed : Option Int} (h : p.Merges p') (init : Option (List Sample)) :
    (anySolve rng seeded fresh exp p numReads o seed).run init = (solve rng seeded fresh exp p' numReads o seed).run init := by
  have hc : checkArgs p numReads o init = checkArgs p' numReads o init := by
    unfold checkArgs
    rw [merges_emptyModel h]
  have hv : p'.mtype.vtype = (p'.toBqm 1).vartype := rfl
  unfold anySolve solve
  simp only [Py.run_bind, Py.run_get, hc]
  cases checkArgs p' numReads o init with
  | error e => rfl
  | ok u =>
    simp only [Py.run_liftE]
    cases chooseRng seeded fresh seed with
    | error e => rfl
    | ok g =>
      simp only [Py.run_bind, Py.run_liftE, h.bqm, anyPrepare_eq h]
      have key : ∀ i : Option (List Sample), (do
          let s ← liftE (anyPrepare p (p'.toBqm 1))
          let init ← get
          let rs ← liftE (reads rng exp s o init (List.range numReads.toNat) g)
          pure (rs.map fun a => { a with sample := changeVartype s.original.vartype a.sample }) :
            Py (Option (List Sample)) (List Annealed)).run i = (do
          let s ← liftE ((anyPrepare p (p'.toBqm 1)).map fun s => { s with model := s.model.merged p'.quad })
          let init ← get
          let rs ← liftE (reads rng exp s o init (List.range numReads.toNat) g)
          pure (rs.map fun a => { a with sample := changeVartype s.original.vartype a.sample }) :
            Py (Option (List Sample)) (List Annealed)).run i := by
        intro i
        simp only [Py.run_bind, Py.run_liftE]
        cases anyPrepare p (p'.toBqm 1) with
        | error e => rfl
        | ok s =>
          simp only [Except.map, Py.run_get, reads_model]
      by_cases ht : p'.mtype.vtype ≠ .spin
      · rw [if_pos ht, if_pos (hv ▸ ht)]
        simp only [Py.run_bind, Py.run_modify]
        exact key _
      · rw [if_neg ht, if_neg (hv ▸ ht)]
        exact key _

end Sawatabi
