import Verif.Lemmas.Run
import Verif.Props.PhysicalTerms

/-!
# From logical models to the annealing; example runs
-/

namespace Sawatabi

/-- The initial states are in the domain of the model: each gives every variable a value of the domain. -/
def StatesOk (p : Physical) (ls : List String) (init : Option (List Sample)) : Prop :=
  ∀ l, init = some l → ∀ st ∈ l, ∀ v ∈ ls, ∃ a, dget st v = some a ∧ p.mtype.vtype.Domain a

/-- The output of a random generator that is enough for every theorem below: a counter. -/
def Ex.rng : Rng Nat where
  integers n g := ((List.range n).map fun i => (i + g) % 2 = 0, g + 1)
  random n g := (List.replicate n (1 / 2), g + 1)
  permutation n g := ((List.range n).reverse, g + 1)

theorem Ex.rng_ok : Ex.rng.Ok := by
  refine ⟨fun n g => by simp [Ex.rng], fun n g => by simp [Ex.rng], fun n g r hr => ?_, fun n g => ?_⟩
  · simp only [Ex.rng, List.mem_replicate] at hr
    rw [hr.2]
    norm_num
  · exact List.reverse_perm _

/-- A stand-in for `math.exp` with `exp 0 = 1` that increases from 0. -/
def Ex.exp (q : ℚ) : Except Err ℚ := .ok (if q ≤ 0 then 1 / (1 - q) else 1 + q)

/-- Run options for the examples. -/
def Ex.options : Options := ⟨3, 1 / 2, 100, .none, .random⟩

/-- The physical model of `Ex.qubo` with `p = 2`. -/
def Ex.physQubo : Physical :=
  match (toPhysical ⟨0, fun _ => ""⟩ (fun _ _ => 0) (fun _ => "1") [("p", 2)]).run Ex.qubo with
  | .ok p _ => p
  | .error _ _ => ⟨.qubo, [], [], 0, [], [], []⟩

/-- The physical model of `Ex.ising`. -/
def Ex.physIsing : Physical :=
  match (toPhysical ⟨0, fun _ => ""⟩ (fun _ _ => 0) (fun _ => "1") []).run Ex.ising with
  | .ok p _ => p
  | .error _ _ => ⟨.ising, [], [], 0, [], [], []⟩

/-- A run of `solve` with the example generator. -/
def Ex.solved (p : Physical) (numReads : Int) (o : Options) (seed : Option Int) (init : Option (List Sample)) :
    Option (List Annealed) :=
  match (solve Ex.rng id 7 Ex.exp p numReads o seed).run init with
  | .ok l _ => some l
  | .error _ _ => none

namespace Props

variable {m m' : LModel} {env : Env} {clks : Nat → Nat → ℚ} {ids : Nat → String} {ph : List (String × ℚ)} {p : Physical}
  {ls : List String}

/-- A physical model made by `to_physical` is ready for the annealing if its variables are registered, not deleted, and
have distinct labels. -/
theorem toPhysical_ready (ho : AllOrdered m.rows) (hph : (ph.map (·.1)).Nodup) (hv : m.allLabels.Nodup)
    (h : (toPhysical env clks ids ph).run m = .ok p m') (hreg : ∀ l ∈ p.varsSet, l ∈ m.allLabels ∧ l ∉ m.deleted) :
    p.Ready (indexed m p) := by
  obtain ⟨c1, c2, c3, _⟩ := C26_no_duplicates ho hph h
  obtain ⟨e1, e2⟩ := conversion_index h
  obtain ⟨e3, e4⟩ := numbering_eq m p.varsSet hv
  refine ⟨c1, c2, ?_, List.filter_sublist.nodup hv, fun l => ?_, ?_, ?_⟩
  · intro k hk
    obtain ⟨t, ht, rfl⟩ := List.mem_map.mp hk
    exact c3 t ht
  · rw [← varsSet_iff h l]
    simp only [indexed, List.mem_filter, decide_eq_true_eq]
    exact ⟨fun h' => h'.2.2, fun h' => ⟨(hreg l h').1, (hreg l h').2, h'⟩⟩
  · rw [e1, e3]; rfl
  · rw [e2, e4]; rfl

theorem foldlM_mem {α β : Type} {f : β → α → Except Err β} {l : List α} {b r : β} (h : l.foldlM f b = .ok r) :
    ∀ a ∈ l, ∃ b' r', f b' a = .ok r' := by
  induction l generalizing b with
  | nil => intro a ha; cases ha
  | cons x l ih =>
    rw [List.foldlM_cons, bind_eq_ok] at h
    obtain ⟨b1, h1, h2⟩ := h
    intro a ha
    rcases List.mem_cons.mp ha with rfl | ha
    · exact ⟨b, b1, h1⟩
    · exact ih h2 a ha

/-- The preparation succeeds only if every variable has an index. -/
theorem prepare_indexed {s : Problem} (h : prepare p = .ok s) :
    ∀ l, (l ∈ dkeys p.linear ∨ ∃ k ∈ dkeys p.quad, k.1 = l ∨ k.2 = l) → ∃ i, dget p.labelToIndex l = some i := by
  intro l hl
  obtain ⟨k1, k2⟩ := toBqm_keys p 1
  have hvar : l ∈ (p.toBqm 1).variables := by rw [Bqm.mem_variables, k1, k2]; exact hl
  unfold prepare at h
  simp only [bind_eq_ok] at h
  obtain ⟨arr, h1, _⟩ := h
  unfold linearArray at h1
  have : l ∈ (if (p.toBqm 1).vartype ≠ .spin then (p.toBqm 1).toSpin else p.toBqm 1).variables := by
    split
    · rw [Bqm.toSpin_mem]; exact hvar
    · exact hvar
  obtain ⟨b, r, h2⟩ := foldlM_mem h1 l this
  rw [bind_eq_ok] at h2
  obtain ⟨i, h3, _⟩ := h2
  refine ⟨i, ?_⟩
  unfold Physical.index at h3
  cases hd : dget p.labelToIndex l with
  | none => rw [hd] at h3; cases h3
  | some j => rw [hd] at h3; cases h3; rfl

theorem foldlM_listSet {α : Type} {f : String → Except Err Nat} {w : String → α} :
    ∀ (vs : List String) (arr r : List α), vs.foldlM (fun arr v => do
      let i ← f v
      listSet arr i (w v)) arr = .ok r → ∀ v ∈ vs, ∃ i, f v = .ok i ∧ i < arr.length := by
  intro vs
  induction vs with
  | nil => intro _ _ _ v hv; cases hv
  | cons x vs ih =>
    intro arr r h v hv
    rw [List.foldlM_cons, bind_eq_ok] at h
    obtain ⟨b, h1, h2⟩ := h
    rw [bind_eq_ok] at h1
    obtain ⟨i, h3, h4⟩ := h1
    unfold listSet at h4
    split at h4
    · rename_i hi
      cases h4
      rcases List.mem_cons.mp hv with rfl | hv
      · exact ⟨i, h3, hi⟩
      · obtain ⟨j, h5, h6⟩ := ih _ _ h2 v hv
        exact ⟨j, h5, by simpa using h6⟩
    · cases h4

/-- If the preparation succeeds for a physical model made by `to_physical`, then every variable has an index, below the
number of variables, so no two arrays share a used label. -/
theorem prepared_nodup {s : Problem} (h : (toPhysical env clks ids ph).run m = .ok p m') (hs : prepare p = .ok s) :
    (indexed m p).Nodup := by
  have hidx := prepare_indexed hs
  obtain ⟨k1, k2⟩ := toBqm_keys p 1
  unfold prepare at hs
  simp only [bind_eq_ok] at hs
  obtain ⟨arr, h1, _⟩ := hs
  have hb : ∃ b : Bqm, b.variables.Nodup ∧ (∀ l, l ∈ b.variables ↔ l ∈ p.varsSet) ∧ linearArray p b = .ok arr := by
    refine ⟨_, Bqm.variables_nodup _, fun l => ?_, h1⟩
    rw [varsSet_iff h l, ← k1, ← k2, ← Bqm.mem_variables]
    split
    · rw [Bqm.toSpin_mem]
    · rfl
  obtain ⟨b, hn, hm, hl⟩ := hb
  have hlt := foldlM_listSet _ _ _ hl
  have hsub : b.variables ⊆ indexed m p := by
    intro l hl
    obtain ⟨i, hi⟩ := hidx l ((varsSet_iff h l).mp ((hm l).mp hl))
    exact List.mem_of_getElem? ((index_last h l i).mp hi).1
  have hsp : b.variables.Subperm (indexed m p) := List.subperm_of_subset hn hsub
  have hlen : (indexed m p).length ≤ b.variables.length := by
    by_cases h0 : (indexed m p).length = 0
    · omega
    · have hi : (indexed m p).length - 1 < (indexed m p).length := by omega
      have hlast : IsLast (indexed m p) (indexed m p)[(indexed m p).length - 1] ((indexed m p).length - 1) := by
        refine ⟨List.getElem?_eq_getElem hi, fun j hj => ?_⟩
        have := (List.getElem?_eq_some_iff.mp hj).1
        omega
      have hmem : (indexed m p)[(indexed m p).length - 1] ∈ b.variables := by
        rw [hm]
        have := List.getElem_mem hi
        simp only [indexed, List.mem_filter, decide_eq_true_eq] at this
        exact this.2.2
      obtain ⟨i, h3, h4⟩ := hlt _ hmem
      rw [List.length_replicate] at h4
      have : i = (indexed m p).length - 1 := by
        unfold Physical.index at h3
        rw [(index_last h _ _).mpr hlast] at h3
        cases h3
        rfl
      omega
  exact (hsp.perm_of_length_le hlen).nodup_iff.mp hn

/-- So if the preparation succeeds for a physical model made by `to_physical`, the model is ready. -/
theorem toPhysical_prepared {s : Problem} (ho : AllOrdered m.rows) (hph : (ph.map (·.1)).Nodup)
    (h : (toPhysical env clks ids ph).run m = .ok p m') (hs : prepare p = .ok s) :
    p.Ready (indexed m p) := by
  have hnd := prepared_nodup h hs
  obtain ⟨c1, c2, c3, _⟩ := C26_no_duplicates ho hph h
  obtain ⟨e1, e2⟩ := conversion_index h
  obtain ⟨e3, e4⟩ := numbering_nodup m p.varsSet hnd
  refine ⟨c1, c2, ?_, hnd, fun l => ?_, ?_, ?_⟩
  · intro k hk
    obtain ⟨t, ht, rfl⟩ := List.mem_map.mp hk
    exact c3 t ht
  · rw [← varsSet_iff h l]
    have : ∀ l ∈ p.varsSet, l ∈ m.allLabels ∧ l ∉ m.deleted := by
      intro l hl
      have := (C25_index_iff h l).mp (prepare_indexed hs l ((varsSet_iff h l).mp hl))
      exact ⟨this.1, this.2.1⟩
    simp only [indexed, List.mem_filter, decide_eq_true_eq]
    exact ⟨fun h' => h'.2.2, fun h' => ⟨(this l h').1, (this l h').2, h'⟩⟩
  · rw [e1, e3]; rfl
  · rw [e2, e4]; rfl

theorem spinInit_get (st : Sample) (l : String) :
    dget (spinInit st) l = (dget st l).map fun a => if a = 0 then -1 else a := by
  unfold spinInit
  induction st with
  | nil => rfl
  | cons kv st ih =>
    simp only [List.map_cons, dget]
    split
    · rfl
    · exact ih

/-- Initial states in the domain can be used to start from, after the conversion. -/
theorem statesOk_spins {init : Option (List Sample)} (h : StatesOk p ls init) :
    ∀ l, converted p init = some l → ∀ st ∈ l, st.SpinsOn ls := by
  intro l hl st hst v hv
  unfold converted at hl
  by_cases ht : p.mtype.vtype ≠ .spin
  · rw [if_pos ht] at hl
    cases hi : init with
    | none => rw [hi] at hl; cases hl
    | some l0 =>
      rw [hi] at hl
      cases hl
      obtain ⟨st0, hst0, rfl⟩ := List.mem_map.mp hst
      obtain ⟨a, ha, hd⟩ := h l0 hi st0 hst0 v hv
      have : p.mtype.vtype = .binary := by
        cases hc : p.mtype.vtype with
        | spin => exact absurd hc ht
        | binary => rfl
      rw [this] at hd
      rw [spinInit_get, ha]
      refine ⟨_, rfl, ?_⟩
      rcases hd with rfl | rfl <;> simp
  · rw [if_neg ht] at hl
    obtain ⟨a, ha, hd⟩ := h l hl st hst v hv
    rw [not_not] at ht
    rw [ht] at hd
    exact ⟨a, ha, hd⟩

/-- What a successful `solve` consists of. -/
theorem solve_ok {γ : Type} {rng : Rng γ} {exp : ℚ → Except Err ℚ} {o : Options} {seeded : Nat → γ} {fresh : γ}
    {numReads : Int} {seed : Option Int} {init init' : Option (List Sample)} {l : List Annealed}
    (h : (solve rng seeded fresh exp p numReads o seed).run init = .ok l init') :
    checkArgs p numReads o init = .ok () ∧ init' = converted p init ∧ ∃ g s rs, chooseRng seeded fresh seed = .ok g ∧
      prepare p = .ok s ∧ reads rng exp s o (converted p init) (List.range numReads.toNat) g = .ok rs ∧
      l = rs.map fun a => { a with sample := changeVartype s.original.vartype a.sample } := by
  rw [solve_run] at h
  cases h1 : checkArgs p numReads o init with
  | error e => rw [h1] at h; cases h
  | ok u =>
    rw [h1] at h
    cases h2 : chooseRng seeded fresh seed with
    | error e => rw [h2] at h; cases h
    | ok g =>
      rw [h2] at h
      cases h3 : prepare p with
      | error e => rw [h3] at h; cases h
      | ok s =>
        rw [h3] at h
        simp only [Except.bind_ok] at h
        cases h4 : reads rng exp s o (converted p init) (List.range numReads.toNat) g with
        | error e => rw [h4] at h; cases h
        | ok rs =>
          rw [h4] at h
          cases h
          exact ⟨rfl, rfl, g, s, rs, rfl, rfl, h4, rfl⟩

/-- Each read of a successful `solve` is a run of the annealing from an admissible state. -/
theorem solve_reads {γ : Type} {rng : Rng γ} {exp : ℚ → Except Err ℚ} {o : Options} {seeded : Nat → γ} {fresh : γ}
    {numReads : Int} {seed : Option Int} {init init' : Option (List Sample)} {l : List Annealed}
    (hp : p.Ready ls) (hst : StatesOk p ls init)
    (h : (solve rng seeded fresh exp p numReads o seed).run init = .ok l init') :
    ∃ s, s.Ok ls ∧ s.model = p ∧ ∀ (j : Nat) (a : Annealed), l[j]? = some a → ∃ st g g' b x t0 t rands,
      InitOk ls st ∧ RunOf rng exp s o st g b g' x t0 t rands ∧
      a = { b with sample := changeVartype p.mtype.vtype b.sample } ∧
      (((init = none ∨ init = some []) ∧ st = none) ∨
        ∃ l0 v, converted p init = some l0 ∧ l0[j]? = some v ∧ st = some v) := by
  obtain ⟨_, _, g, s, rs, _, h2, h3, rfl⟩ := solve_ok h
  obtain ⟨hs, hsm⟩ := prepare_ok' hp h2
  obtain ⟨hl, hr⟩ := reads_get h3
  refine ⟨s, hs, hsm, fun j a ha => ?_⟩
  rw [List.getElem?_map] at ha
  cases hb : rs[j]? with
  | none => rw [hb] at ha; cases ha
  | some b =>
    rw [hb] at ha
    cases ha
    obtain ⟨r, st, g1, g2, e1, e2, e3⟩ := hr j b hb
    have hrj : r = j := by
      obtain ⟨_, e⟩ := List.getElem?_eq_some_iff.mp e1
      rw [List.getElem_range] at e
      exact e.symm
    subst hrj
    obtain ⟨x, t0, t, rands, hrun⟩ := annealing_iff.mp e2
    have hv : s.original.vartype = p.mtype.vtype := by rw [hs.original, hsm]; rfl
    refine ⟨st, g1, g2, b, x, t0, t, rands, ?_, hrun, by rw [hv], ?_⟩
    · rcases e3 with ⟨_, rfl⟩ | ⟨l0, v, f1, f2, rfl⟩
      · trivial
      · exact statesOk_spins hst l0 f1 v (List.mem_of_getElem? f2)
    · rcases e3 with ⟨f, rfl⟩ | e3
      · left
        refine ⟨?_, rfl⟩
        unfold converted at f
        cases init with
        | none => exact .inl rfl
        | some l0 =>
          right
          split at f
          · rcases f with f | f
            · cases f
            · simp only [Option.map_some, Option.some.injEq, List.map_eq_nil_iff] at f
              rw [f]
          · rcases f with f | f
            · cases f
            · exact f
      · exact .inr e3

example : Ex.physQubo.Ready ["x[0]", "x[1]", "x[2]"] := by
  refine ⟨by decide +kernel, by decide +kernel, by decide +kernel, by decide +kernel, fun l => ?_, by decide +kernel, by decide +kernel⟩
  rw [show Ex.physQubo.linear = [("x[0]", 6), ("x[2]", -4)] by decide +kernel, show Ex.physQubo.quad = [(("x[0]", "x[1]"), 2)] by decide +kernel]
  simp only [dkeys, List.map_cons, List.map_nil, List.mem_cons, List.not_mem_nil, or_false, exists_eq_left, eq_comm]
  tauto

end Props

end Sawatabi
