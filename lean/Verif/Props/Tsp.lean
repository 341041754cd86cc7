import Verif.Lemmas.TspMap
import Verif.Lemmas.Compile

/-!
# C88, C89: the travelling salesperson application
-/

namespace Sawatabi.Props

open Finset Stream NppStream Tsp

variable {κ : Type} {dist : κ → κ → ℚ} {compile : HExpr → PModel} {newId : String} {now : ℚ} {env : Env} {clks : Nat → Nat → ℚ}
  {ids : Nat → String} {solver : Physical → Except Err (List (Sample × ℚ))} {n : Nat} {d : Nat → Nat → ℚ} {m m' : LModel} {p : Physical}

/-! ## C88: the model of a window -/

/-- PyQUBO compiles the quadratic expressions correctly. -/
def CompilesAll (compile : HExpr → PModel) : Prop := ∀ h, h.degree ≤ 2 → Compiles h (compile h)

/-- This can be met. -/
theorem C88_compilable : ∃ compile, CompilesAll compile := ⟨compileRef, fun _ h => compileRef_compiles h⟩

/-- The model is that of the problem for these cities: its energy is the Hamiltonian, for all bits and all values of the
placeholders. -/
def Poses (dist : κ → κ → ℚ) (els : List (El (City κ))) (m : LModel) : Prop :=
  ∀ (ρ : PEnv) (σ : Assign), σ.IsBinary →
    m.energy ρ σ = cost els.length (distances dist els) (ρ "time") (ρ "city") fun i j => σ (Tsp.lab i j)

theorem mapping_good {S : Type} (hc : CompilesAll compile) (hm : m.mtype = .qubo) (prev : Option S) {els : List (El (City κ))}
    (inc out : List (El (City κ))) (hne : els ≠ []) (env : Env) :
    ∃ m', (Tsp.mapping dist compile newId now prev els inc out).run m = .ok m' m ∧ Good env els.length (distances dist els) m' :=
  Tsp.mapping_ok env newId now prev inc out hne (fun x h hx hh => by
    obtain ⟨h', h1, h2⟩ := hamiltonian_sem dist rfl hx
    rw [hh] at h1
    cases h1
    exact hc _ h2.degree) hm

/-- For every window with at least one city the application makes a QUBO model from scratch, whatever the previous model
holds: its energy is the Hamiltonian of the problem, it has the bits of the cities and no others, and it has no
constraints. -/
theorem C88_mapping {S : Type} (hc : CompilesAll compile) (hm : m.mtype = .qubo) (prev : Option S) {els : List (El (City κ))}
    (inc out : List (El (City κ))) (hne : els ≠ []) :
    ∃ m', (Tsp.mapping dist compile newId now prev els inc out).run m = .ok m' m ∧ m'.mtype = .qubo ∧ m'.constraints = [] ∧
      Poses dist els m' ∧ ∃ a, m'.vars = [("city", a)] ∧ IsArray "city" [els.length, els.length] .binary a := by
  obtain ⟨m', h1, h2⟩ := mapping_good (newId := newId) (now := now) (dist := dist) hc hm prev inc out hne ⟨0, fun _ => ""⟩
  exact ⟨m', h1, h2.mtype, h2.constraints, h2.energy, h2.vars⟩

/-- The model of an empty window is empty. -/
theorem C88_empty_window {S : Type} (prev : Option S) (inc out : List (El (City κ))) :
    (Tsp.mapping dist compile newId now prev [] inc out).run m = .ok (LModel.new m.mtype newId) m := rfl

/-! ## The solution -/

theorem lab_inj2 {i j k l : Nat} (h : Tsp.lab i j = Tsp.lab k l) : i = k ∧ j = l := by
  have := (label_inj (by decide) (by decide) h).2
  simpa using this

/-- The values of the placeholders. -/
def weightsEnv : PEnv := fun x => if x = "time" then 35 / 2 else if x = "city" then 15 else 0

theorem weightsEnv_extends : weightsEnv.Extends weights := by
  intro x q hx
  simp only [weights, List.mem_cons, Prod.mk.injEq, List.not_mem_nil, or_false] at hx
  rcases hx with ⟨rfl, rfl⟩ | ⟨rfl, rfl⟩ <;> simp [weightsEnv]

/-- One bit is set. -/
def oneBit (i j : Nat) : Nat → Nat → ℚ := fun a b => if a = i ∧ b = j then 1 else 0

theorem cost_zero (n : Nat) (d : Nat → Nat → ℚ) (A B : ℚ) : cost n d A B (fun _ _ => 0) = A * n + B * n := by
  simp [cost]

theorem cost_oneBit {n : Nat} {d : Nat → Nat → ℚ} (A B : ℚ) {i j : Nat} (hi : i < n) (hj : j < n) (hd : d j j = 0) :
    cost n d A B (oneBit i j) = A * (n - 1) + B * (n - 1) := by
  have hline : ∀ k < n, ∑ a ∈ range n, ((if a = k then (1 : ℚ) else 0) - 1) ^ 2 = (n : ℚ) - 1 := by
    intro k hk
    have : ∀ a ∈ range n, ((if a = k then (1 : ℚ) else 0) - 1) ^ 2 = 1 - if a = k then 1 else 0 := by
      intro a _
      split <;> norm_num
    rw [Finset.sum_congr rfl this, Finset.sum_sub_distrib, Finset.sum_ite_eq' (range n) k, if_pos (Finset.mem_range.mpr hk)]
    simp
  have hrow : ∀ a ∈ range n, (∑ b ∈ range n, oneBit i j a b - 1) ^ 2 = ((if a = i then (1 : ℚ) else 0) - 1) ^ 2 := by
    intro a _
    congr 2
    unfold oneBit
    by_cases ha : a = i
    · simp [ha, hj]
    · simp [ha]
  have hcol : ∀ b ∈ range n, (∑ a ∈ range n, oneBit i j a b - 1) ^ 2 = ((if b = j then (1 : ℚ) else 0) - 1) ^ 2 := by
    intro b _
    congr 2
    unfold oneBit
    by_cases hb : b = j
    · simp [hb, hi]
    · simp [hb]
  have htr : ∑ a ∈ range n, ∑ b ∈ range n, ∑ k ∈ range n, d a b * oneBit i j k a * oneBit i j ((k + 1) % n) b = 0 := by
    refine Finset.sum_eq_zero fun a _ => Finset.sum_eq_zero fun b _ => Finset.sum_eq_zero fun k _ => ?_
    unfold oneBit
    by_cases ha : a = j
    · by_cases hb : b = j
      · rw [ha, hb, hd]; ring
      · simp [hb]
    · simp [ha]
  unfold cost
  rw [htr, Finset.sum_congr rfl hrow, Finset.sum_congr rfl hcol, hline i hi, hline j hj]
  ring

theorem energy_unused {v : String} (hv : ¬ p.Uses v) {σ τ : Assign} (h : ∀ w, w ≠ v → σ w = τ w) : p.energy σ = p.energy τ := by
  have hcongr : ∀ w, p.Uses w → σ w = τ w := fun w hw => h w fun hc => hv (hc ▸ hw)
  unfold Physical.energy
  congr 1
  · congr 2
    apply List.map_congr_left
    intro kv hkv
    rw [hcongr kv.1 (.inl (List.mem_map.mpr ⟨_, hkv, rfl⟩))]
  · congr 1
    apply List.map_congr_left
    intro kv hkv
    rw [hcongr kv.1.1 (.inr ⟨kv.1, List.mem_map.mpr ⟨_, hkv, rfl⟩, .inl rfl⟩),
      hcongr kv.1.2 (.inr ⟨kv.1, List.mem_map.mpr ⟨_, hkv, rfl⟩, .inr rfl⟩)]

/-- The physical model of a window. -/
structure Ready (n : Nat) (d : Nat → Nat → ℚ) (p : Physical) : Prop where
  mtype : p.mtype = .qubo
  fromCalls : p.FromCalls
  energy : ∀ σ : Assign, σ.IsBinary → p.energy σ = cost n d (35 / 2) 15 fun i j => σ (Tsp.lab i j)

theorem good_physical (h : Good env n d m) (clks : Nat → Nat → ℚ) (ids : Nat → String) :
    ∃ p, (toPhysical env clks ids weights).run m = .ok p m.cleaned ∧ Ready n d p := by
  obtain ⟨id, hr⟩ := h.reach
  have hu := C01_names_unique_partial hr
  have hrect := made_rect (fun _ _ h => h) h.made
  obtain ⟨p, m', hp⟩ := (C19_succeeds_partial (env := env) (clks := clks) (ids := ids) hrect hu h.constraints).mpr h.filled
  have hm' : m' = m.cleaned := by
    obtain ⟨bs, m₁, g, off, m₂, hc⟩ := toPhysical_ok hp
    have hl := hc.models
    rw [h.constraints] at hl
    cases hl
    exact hc.state hrect hu fun r _ _ b hb => (by cases hb)
  subst hm'
  refine ⟨p, hp, by rw [physical_mtype hp, h.mtype], made_fromCalls h.made (by decide) hp, fun σ hσ => ?_⟩
  rw [C19_energy_partial hrect h.constraints hp weightsEnv_extends, h.energy _ _ hσ]
  rfl

theorem Ready.uses (h : Ready n d p) (hd : ∀ j < n, d j j = 0) {i j : Nat} (hi : i < n) (hj : j < n) : p.Uses (Tsp.lab i j) := by
  by_contra hv
  let τ : Assign := fun w => if w = Tsp.lab i j then 1 else 0
  have he := energy_unused hv (σ := fun _ => 0) (τ := τ) (by intro w hw; simp [τ, hw])
  rw [h.energy _ (fun _ => .inl rfl), h.energy τ (fun w => by unfold τ; split; exact .inr rfl; exact .inl rfl), cost_zero] at he
  have : (fun a b => τ (Tsp.lab a b)) = oneBit i j := by
    funext a b
    unfold oneBit
    by_cases hab : a = i ∧ b = j
    · simp [τ, hab]
    · have hne : Tsp.lab a b ≠ Tsp.lab i j := fun hc => hab (lab_inj2 hc)
      simp [τ, hab, hne]
  rw [this, cost_oneBit _ _ hi hj (hd j hj)] at he
  linarith

/-- Bits for all pairs of indices as bits for all labels. -/
theorem exists_labels (Y : Nat → Nat → ℤ) (h : ∀ i j, Y i j = 0 ∨ Y i j = 1) :
    ∃ f : String → ℤ, (∀ v, f v = 0 ∨ f v = 1) ∧ ∀ i j, f (Tsp.lab i j) = Y i j := by
  classical
  refine ⟨fun v => if hv : ∃ ij : Nat × Nat, v = Tsp.lab ij.1 ij.2 then Y hv.choose.1 hv.choose.2 else 0, ?_, ?_⟩
  · intro v
    simp only
    split
    · exact h _ _
    · exact .inl rfl
  · intro i j
    have hv : ∃ ij : Nat × Nat, Tsp.lab i j = Tsp.lab ij.1 ij.2 := ⟨(i, j), rfl⟩
    simp only
    rw [dif_pos hv]
    obtain ⟨h1, h2⟩ := lab_inj2 hv.choose_spec
    rw [← h1, ← h2]

theorem Ready.solved (h : Ready n d p) (hn : 0 < n) (hd : ∀ j < n, d j j = 0) :
    ∃ res s, exactSolver p = .ok res ∧ best res = .ok s ∧ ∃ X : Nat → Nat → ℤ,
      (∀ i j, X i j = 0 ∨ X i j = 1) ∧ (∀ i < n, ∀ j < n, dget s (Tsp.lab i j) = some (X i j)) ∧
      ∀ Y : Nat → Nat → ℤ, (∀ i j, Y i j = 0 ∨ Y i j = 1) →
        cost n d (35 / 2) 15 (fun i j => (X i j : ℚ)) ≤ cost n d (35 / 2) 15 (fun i j => (Y i j : ℚ)) := by
  have hne : ¬ Props.Empty p := by
    rintro ⟨h1, h2⟩
    have := h.uses hd hn hn
    unfold Physical.Uses at this
    rw [h1, h2] at this
    simp [dkeys] at this
  obtain ⟨res, log', hr, g1, g2, _⟩ := C57_all_assignments h.fromCalls hne []
  have hvt : p.mtype.vtype = .binary := by rw [h.mtype]; rfl
  rw [hvt] at g1 g2
  obtain ⟨r0, hr0, _⟩ := g2 (fun _ => 0) (fun _ _ => .inl rfl)
  obtain ⟨r, hrm, hbest, hmin⟩ := best_ok (l := res) (by rintro rfl; cases hr0)
  obtain ⟨e1, _, e2, e3⟩ := g1 r hrm
  have hdom : ∀ v, complete (fun _ => 0) r.1 v = 0 ∨ complete (fun _ => 0) r.1 v = 1 :=
    complete_domain (vt := .binary) e3 (fun _ => .inl rfl)
  have hbin : ∀ f : String → ℤ, (∀ v, f v = 0 ∨ f v = 1) → Assign.IsBinary fun v => ((f v : ℤ) : ℚ) := by
    intro f hf v
    rcases hf v with h | h
    · left; simp [h]
    · right; simp [h]
  refine ⟨res, r.1, by unfold exactSolver; rw [hr], hbest, fun i j => complete (fun _ => 0) r.1 (Tsp.lab i j), fun i j => hdom _, ?_, ?_⟩
  · intro i hi j hj
    obtain ⟨a, ha⟩ := (dget_isSome_iff r.1 (Tsp.lab i j)).mpr ((e2 _).mpr (h.uses hd hi hj))
    simp [complete, ha]
  · intro Y hY
    obtain ⟨f, hf, hfY⟩ := exists_labels Y hY
    obtain ⟨r', hr', hget⟩ := g2 f fun v _ => hf v
    have hle := hmin r' hr'
    rw [e1, energy_complete (fun _ => 0) (fun v hv => (e2 v).mpr hv), (g1 r' hr').1,
      energy_complete f (fun v hv => ((g1 r' hr').2.2.1 v).mpr hv)] at hle
    have hc : complete f r'.1 = f := by
      funext v
      unfold complete
      by_cases hv : p.Uses v
      · rw [hget v hv]; rfl
      · have : dget r'.1 v = none := by
          rw [dget_eq_none_iff]
          exact fun hc => hv (((g1 r' hr').2.2.1 v).mp hc)
        rw [this]; rfl
    rw [hc, h.energy _ (hbin _ hdom), h.energy _ (hbin _ hf)] at hle
    simpa only [hfY] using hle

/-! ## Reading the result -/

theorem key_lab2 (i j : Nat) : "city[" ++ Nat.repr i ++ "][" ++ Nat.repr j ++ "]" = Tsp.lab i j := by
  apply String.toList_inj.mp
  simp [Tsp.lab, arrayLabel_eq, idxSuffix, String.toList_append]

theorem cityAt_eq {s : Sample} {i : Nat} {X : Nat → Nat → ℤ} (els : List (El (City κ))) (k : Nat)
    (h : ∀ j < els.length, dget s (Tsp.lab i (k + j)) = some (X i (k + j))) :
    cityAt s i els k = .ok (((els.zipIdx k).find? fun e => decide (X i e.2 = 1)).map (·.1.data.name)).toList := by
  induction els generalizing k with
  | nil => rfl
  | cons e els ih =>
    unfold cityAt
    have h0 := h 0 (by simp)
    rw [Nat.add_zero] at h0
    rw [key_lab2, h0, List.zipIdx_cons]
    simp only
    by_cases hX : X i k = 1
    · rw [if_pos hX, List.find?_cons_of_pos (by simp [hX])]
      rfl
    · rw [if_neg hX, List.find?_cons_of_neg (by simp [hX])]
      exact ih (k + 1) fun j hj => by
        have := h (j + 1) (by simpa using hj)
        rwa [show k + (j + 1) = k + 1 + j by omega] at this

theorem fold_flat {F : Nat → Except Err (List String)} {k : Nat} {g : Nat → List String} (h : ∀ i < k, F i = .ok (g i))
    (acc : List String) :
    (List.range k).foldlM (fun order i => do return order ++ (← F i)) acc = .ok (acc ++ (List.range k).flatMap g) := by
  induction k with
  | zero => simp; rfl
  | succ k ih =>
    rw [List.range_succ, List.foldlM_append, ih fun i hi => h i (by omega)]
    simp only [Except.bind_ok, List.foldlM_cons, List.foldlM_nil, h k (by omega), List.flatMap_append, List.flatMap_cons,
      List.flatMap_nil, List.append_nil, List.append_assoc]
    rfl

/-- A sample with a bit for each time and city is read without error; the answer is what the bits select. -/
theorem C89_reading {samples : List (Sample × ℚ)} {els : List (El (City κ))} {s : Sample} {X : Nat → Nat → ℤ}
    (hb : best samples = .ok s) (hX : ∀ i < els.length, ∀ j < els.length, dget s (Tsp.lab i j) = some (X i j))
    (inc out : List (El (City κ))) : Tsp.unmapping samples els inc out = .ok (selected els X) := by
  unfold Tsp.unmapping
  rw [hb]
  simp only [Except.bind_ok]
  exact fold_flat (fun i hi => cityAt_eq els 0 fun j hj => by rw [Nat.zero_add]; exact hX i hi j hj) []

/-- If a bit is missing in the sample, the application raises. -/
theorem C89_missing {samples : List (Sample × ℚ)} {els : List (El (City κ))} {s : Sample}
    (hb : best samples = .ok s) (hne : els ≠ []) (hX : dget s (Tsp.lab 0 0) = none)
    (inc out : List (El (City κ))) : Tsp.unmapping samples els inc out = .error .keyError := by
  unfold Tsp.unmapping
  rw [hb]
  simp only [Except.bind_ok]
  obtain ⟨e, els, rfl⟩ := List.exists_cons_of_ne_nil hne
  rw [List.length_cons, List.range_succ_eq_map, List.foldlM_cons]
  unfold cityAt
  rw [key_lab2, hX]
  rfl

/-- At most one city is named for each time. -/
theorem C89_length (els : List (El (City κ))) (X : Nat → Nat → ℤ) : (selected els X).length ≤ els.length := by
  have key : ∀ k, ((List.range k).flatMap fun i =>
      ((els.zipIdx.find? fun e => decide (X i e.2 = 1)).map (·.1.data.name)).toList).length ≤ k := by
    intro k
    induction k with
    | zero => simp
    | succ k ih =>
      rw [List.range_succ, List.flatMap_append, List.length_append]
      simp only [List.flatMap_cons, List.flatMap_nil, List.append_nil]
      have : ((els.zipIdx.find? fun e => decide (X k e.2 = 1)).map (·.1.data.name)).toList.length ≤ 1 := by
        cases els.zipIdx.find? fun e => decide (X k e.2 = 1) <;> simp
      omega
  exact key _

/-- The bits of a tour select the cities of the tour in its order. -/
theorem C89_tour {els : List (El (City κ))} {X : Nat → Nat → ℤ} {t : List Nat} (ht : Tour els.length t)
    (hf : Follows els.length X t) : Names els t (selected els X) := by
  have hfind : ∀ i < els.length, els.zipIdx.find? (fun e => decide (X i e.2 = 1)) = els[t.getD i 0]?.map fun e => (e, t.getD i 0) := by
    intro i hi
    obtain ⟨g1, g2⟩ := tour_get ht hi
    have hone : ∀ j < els.length, X i j = 1 ↔ j = t.getD i 0 := by
      intro j hj
      rw [hf i hi j hj, g1]
      generalize t.getD i 0 = c
      by_cases h : c = j
      · simp [h]
      · simp [h, show ¬ j = c from fun hc => h hc.symm]
    rw [List.getElem?_eq_getElem g2, Option.map_some, List.find?_eq_some_iff_getElem]
    refine ⟨decide_eq_true ((hone _ g2).mpr rfl), t.getD i 0, by simpa using g2, by simp, fun j hj => ?_⟩
    have hj' : j < els.length := lt_trans hj g2
    simp only [List.getElem_zipIdx, Nat.zero_add, Bool.not_eq_eq_eq_not, Bool.not_true, decide_eq_false_iff_not, hone j hj']
    omega
  have hsel : selected els X = (List.range els.length).map fun i => ((els[t.getD i 0]?).map (·.data.name)).getD "" := by
    unfold selected
    rw [List.map_eq_flatMap]
    apply List.flatMap_congr
    intro i hi
    have hi := List.mem_range.mp hi
    obtain ⟨g1, g2⟩ := tour_get ht hi
    rw [hfind i hi, List.getElem?_eq_getElem g2]
    rfl
  have hlen := tour_length ht
  rw [hsel]
  unfold Names
  apply List.ext_getElem?
  intro i
  by_cases hi : i < els.length
  · obtain ⟨g1, g2⟩ := tour_get ht hi
    obtain ⟨e, he⟩ : ∃ e, els[t.getD i 0]? = some e := ⟨_, List.getElem?_eq_getElem g2⟩
    rw [List.getElem?_map, List.getElem?_map, List.getElem?_range hi, List.getElem?_map, g1]
    simp only [Option.map_some, he, Option.getD_some]
  · rw [List.getElem?_eq_none (by simp; omega), List.getElem?_eq_none (by simp; omega)]

/-! ## Windows -/

/-- What a window yields if this is its physical model. -/
def tspOutput (solver : Physical → Except Err (List (Sample × ℚ))) (p : Physical) (els : List (El (City κ))) : Output (List String) :=
  match solver p with
  | .error e => .failedSolve e
  | .ok s => match Tsp.unmapping s els [] [] with
    | .error e => .failedUnmap e
    | .ok r => .result r

theorem tsp_step {alg : Algorithm LModel (City κ)} (halg : alg = .window ∨ alg = .delta) (hc : CompilesAll compile) {initial : LModel}
    {st : St LModel (List (Sample × ℚ)) (City κ)} (hq : (st.model.getD initial).mtype = .qubo) {w : Win (City κ)} (shared : Bool)
    (hts : st.ts.getD (-1) ≤ w.ts) (hne : w.elements ≠ []) :
    ∃ st' m p, (process alg (Tsp.fns dist compile newId now env clks ids solver) initial shared w).run st =
        .ok [tspOutput solver p (sorted w.elements)] st' ∧ st'.ts = some w.ts ∧ (st'.model.getD initial).mtype = .qubo ∧
      solveArgs st'.calls = solveArgs st.calls ++ [(m, sorted w.elements)] ∧
      Good env (sorted w.elements).length (distances dist (sorted w.elements)) m ∧
      Ready (sorted w.elements).length (distances dist (sorted w.elements)) p := by
  have hne' : sorted w.elements ≠ [] := by
    intro h0
    have := (sorted_perm w.elements).length_eq
    rw [h0] at this
    exact hne (List.length_eq_zero_iff.mp this.symm)
  have hcur : currentElements alg (st.elements.getD []) (sorted w.elements) = .ok (sorted w.elements) := by
    rcases halg with rfl | rfl <;> rfl
  obtain ⟨out, hout⟩ : ∃ out, resolveOutgoing (st.elements.getD []) (sorted w.elements) = .ok out := by
    obtain ⟨c, cs, h0⟩ := List.exists_cons_of_ne_nil hne'
    rw [h0, resolveOutgoing_cons]
    exact ⟨_, rfl⟩
  obtain ⟨m, hm, hg⟩ := mapping_good (newId := newId) (now := now) (dist := dist) hc hq st.sampleset
    (resolveIncoming (st.elements.getD []) (sorted w.elements)) out hne' env
  obtain ⟨p, hp, hr⟩ := good_physical hg clks ids
  rw [process_run, if_neg (not_lt.mpr hts), hcur]
  simp only [hout]
  unfold afterMap
  simp only [Tsp.fns]
  rw [hm]
  have hatt : ∀ st : St LModel (List (Sample × ℚ)) (City κ), (attenuationStage alg m).run st = .ok m st := by
    intro st
    rcases halg with rfl | rfl <;> rfl
  simp only [hatt]
  rw [solveStage_run]
  have hs : (Tsp.solving env clks ids solver st.sampleset (sorted w.elements)
      (resolveIncoming (st.elements.getD []) (sorted w.elements)) out).run m =
      match solver p with
      | .ok s => .ok s m.cleaned
      | .error e => .error e m.cleaned := by
    unfold Tsp.solving
    simp only [Py.run_bind, hp, Py.run_liftE]
    cases solver p <;> rfl
  simp only [hs]
  cases hsol : solver p with
  | error e =>
    have ho : tspOutput solver p (sorted w.elements) = .failedSolve e := by simp only [tspOutput, hsol]
    simp only
    refine ⟨_, m, p, by rw [ho], ?_⟩
    refine ⟨rfl, hg.mtype, ?_, hg, hr⟩
    simp [solveArgs, List.filterMap_append]
  | ok s =>
    cases hun : Tsp.unmapping s (sorted w.elements) (resolveIncoming (st.elements.getD []) (sorted w.elements)) out with
    | ok b =>
      have hun' : Tsp.unmapping s (sorted w.elements) [] [] = .ok b := hun
      have ho : tspOutput solver p (sorted w.elements) = .result b := by simp only [tspOutput, hsol, hun']
      simp only [hun]
      refine ⟨_, m, p, by rw [ho], ?_⟩
      refine ⟨rfl, hg.mtype, ?_, hg, hr⟩
      simp [solveArgs, List.filterMap_append]
    | error e =>
      have hun' : Tsp.unmapping s (sorted w.elements) [] [] = .error e := hun
      have ho : tspOutput solver p (sorted w.elements) = .failedUnmap e := by simp only [tspOutput, hsol, hun']
      simp only [hun]
      refine ⟨_, m, p, by rw [ho], ?_⟩
      refine ⟨rfl, hg.mtype, ?_, hg, hr⟩
      simp [solveArgs, List.filterMap_append]

theorem tsp_run {alg : Algorithm LModel (City κ)} (halg : alg = .window ∨ alg = .delta) (hc : CompilesAll compile) {initial : LModel}
    {ws : List (Bool × Win (City κ))} {st : St LModel (List (Sample × ℚ)) (City κ)} (hq : (st.model.getD initial).mtype = .qubo)
    (ho : InOrder (st.ts.getD (-1)) (ws.map (·.2))) (hne : ∀ w ∈ ws, w.2.elements ≠ []) :
    ∃ os st' new, (processAll alg (Tsp.fns dist compile newId now env clks ids solver) initial ws).run st = .ok os st' ∧
      solveArgs st'.calls = solveArgs st.calls ++ new ∧
      List.Forall₂ (fun w o => ∃ p, Ready (sorted w.2.elements).length (distances dist (sorted w.2.elements)) p ∧
        o = [tspOutput solver p (sorted w.2.elements)]) ws os ∧
      List.Forall₂ (fun w c => c.2 = sorted w.2.elements ∧ Poses dist c.2 c.1) ws new := by
  induction ws generalizing st with
  | nil => exact ⟨[], st, [], rfl, by simp, .nil, .nil⟩
  | cons w ws ih =>
    obtain ⟨ho1, ho2⟩ := ho
    obtain ⟨st1, m, p, h1, h2, h3, h4, h5, h6⟩ := tsp_step (dist := dist) (newId := newId) (now := now) (env := env) (clks := clks)
      (ids := ids) (solver := solver) halg hc hq w.1 ho1 (hne w (by simp))
    obtain ⟨os, st2, new, g1, g2, g3, g4⟩ := ih (st := st1) h3 (by rw [h2]; exact ho2) fun w hw => hne w (by simp [hw])
    refine ⟨_ :: os, st2, (m, sorted w.2.elements) :: new, ?_, ?_, .cons ⟨p, h6, rfl⟩ g3, .cons ⟨rfl, h5.energy⟩ g4⟩
    · simp only [processAll, Py.run_bind, h1, g1, Py.run_pure]
    · rw [g2, h4]; simp

/-- Over windows in order with at least one city each, the application handles every window, and whatever the solver does
(it may fail), the model it is given next is that of the cities of the window: nothing is left of earlier windows. -/
theorem C88_windows {alg : Algorithm LModel (City κ)} (halg : alg = .window ∨ alg = .delta) (hc : CompilesAll compile) (id : String)
    {ws : List (Bool × Win (City κ))} (ho : InOrder (-1) (ws.map (·.2))) (hne : ∀ w ∈ ws, w.2.elements ≠ []) :
    ∃ os st', (processAll alg (Tsp.fns dist compile newId now env clks ids solver) (LModel.new .qubo id) ws).run St.start = .ok os st' ∧
      os.length = ws.length ∧
      List.Forall₂ (fun w c => c.2.Perm w.2.elements ∧ Poses dist c.2 c.1) ws (solveArgs st'.calls) := by
  obtain ⟨os, st', new, h1, h2, h3, h4⟩ := tsp_run (dist := dist) (newId := newId) (now := now) (env := env) (clks := clks)
    (ids := ids) (solver := solver) (initial := LModel.new .qubo id) (st := St.start) halg hc rfl ho hne
  refine ⟨os, st', h1, h3.length_eq.symm, ?_⟩
  have h2 : solveArgs st'.calls = new := by rw [h2]; rfl
  rw [h2]
  exact h4.imp fun w c h => ⟨h.1 ▸ sorted_perm _, h.2⟩

/-! ## C89: exact solutions -/

/-- There is a tour shorter than twice the smaller weight. -/
def ShortTour (dist : κ → κ → ℚ) (els : List (El (City κ))) : Prop :=
  ∃ t, Tour els.length t ∧ tourLength (distances dist els) t < 30

/-- With the exact solver every window with a city yields an answer: what bits select that minimise the Hamiltonian with
the weights of the application. -/
theorem C89_answers {alg : Algorithm LModel (City κ)} (halg : alg = .window ∨ alg = .delta) (hc : CompilesAll compile)
    (hself : ∀ a, dist a a = 0) (id : String)
    {ws : List (Bool × Win (City κ))} (ho : InOrder (-1) (ws.map (·.2))) (hne : ∀ w ∈ ws, w.2.elements ≠ []) :
    ∃ os st', (processAll alg (Tsp.fns dist compile newId now env clks ids exactSolver) (LModel.new .qubo id) ws).run St.start =
        .ok os st' ∧
      List.Forall₂ (fun w o => ∃ els X, els.Perm w.2.elements ∧ Minimises els.length (distances dist els) (35 / 2) 15 X ∧
        o = [.result (selected els X)]) ws os := by
  obtain ⟨os, st', new, h1, h2, h3, h4⟩ := tsp_run (dist := dist) (newId := newId) (now := now) (env := env) (clks := clks)
    (ids := ids) (solver := exactSolver) (initial := LModel.new .qubo id) (st := St.start) halg hc rfl ho hne
  refine ⟨os, st', h1, ?_⟩
  have hpos : ∀ w ∈ ws, 0 < (sorted w.2.elements).length := by
    intro w hw
    rw [(sorted_perm w.2.elements).length_eq]
    exact List.length_pos_iff.mpr (hne w hw)
  clear h1 h2 h4 ho hne
  induction h3 with
  | nil => exact .nil
  | @cons w o ws os hwo _ ih =>
    refine .cons ?_ (ih fun w hw => hpos w (by simp [hw]))
    obtain ⟨p, hr, rfl⟩ := hwo
    have hz : ∀ j < (sorted w.2.elements).length, distances dist (sorted w.2.elements) j j = 0 := by
      intro j hj
      unfold distances
      rw [List.getElem?_eq_getElem hj]
      exact hself _
    obtain ⟨res, s, e1, e2, X, e3, e4, e5⟩ := hr.solved (hpos w (by simp)) hz
    refine ⟨sorted w.2.elements, X, sorted_perm _, ⟨e3, e5⟩, ?_⟩
    simp only [tspOutput, e1, C89_reading e2 e4 [] []]

theorem distances_nonneg (hd : ∀ a b, 0 ≤ dist a b) (els : List (El (City κ))) (i j : Nat) : 0 ≤ distances dist els i j := by
  unfold distances
  split
  · exact hd _ _
  · exact le_rfl

/-- If the cities have a tour shorter than 30 (3000 km, as the distances are in 100 km), the answer is a shortest tour. -/
theorem C89_shortest_partial {alg : Algorithm LModel (City κ)} (halg : alg = .window ∨ alg = .delta) (hc : CompilesAll compile)
    (hd : ∀ a b, 0 ≤ dist a b) (hself : ∀ a, dist a a = 0) (id : String)
    {ws : List (Bool × Win (City κ))} (ho : InOrder (-1) (ws.map (·.2))) (hne : ∀ w ∈ ws, w.2.elements ≠ []) :
    ∃ os st', (processAll alg (Tsp.fns dist compile newId now env clks ids exactSolver) (LModel.new .qubo id) ws).run St.start =
        .ok os st' ∧
      List.Forall₂ (fun w o => ∃ els r, els.Perm w.2.elements ∧ o = [.result r] ∧ r.length ≤ els.length ∧
        (ShortTour dist els → ∃ t, Shortest els.length (distances dist els) t ∧ Names els t r)) ws os := by
  obtain ⟨os, st', h1, h2⟩ := C89_answers (newId := newId) (now := now) (env := env) (clks := clks) (ids := ids) halg hc hself id ho hne
  refine ⟨os, st', h1, h2.imp ?_⟩
  rintro w o ⟨els, X, hp, ⟨h3, h4⟩, rfl⟩
  refine ⟨els, selected els X, hp, rfl, C89_length _ _, fun ⟨t₀, ht₀, hlt⟩ => ?_⟩
  obtain ⟨t, ht, hf⟩ := ground (fun i _ j _ => distances_nonneg hd els i j) ht₀ (by linarith) (by linarith) h3 h4
  exact ⟨t, ht, C89_tour ht.1 hf⟩

/-- The weights are too small for cities that are far apart: two cities with a tour longer than 30 are never both visited,
one of them is named twice. -/
theorem C89_far_refuted {dist : κ → κ → ℚ} {a b : El (City κ)} {X : Nat → Nat → ℤ}
    (hself : ∀ a, dist a a = 0) (hfar : 30 < dist a.data.place b.data.place + dist b.data.place a.data.place)
    (hd : ∀ a b, 0 ≤ dist a b) (h : Minimises 2 (distances dist [a, b]) (35 / 2) 15 X) :
    selected [a, b] X = [a.data.name, a.data.name] ∨ selected [a, b] X = [b.data.name, b.data.name] := by
  obtain ⟨h01, hmin⟩ := h
  have h0 := hmin (fun i j => if j = 0 then 1 else 0) (fun i j => by split; exact .inr rfl; exact .inl rfl)
  have e1 := hd a.data.place b.data.place
  have e2 := hd b.data.place a.data.place
  simp only [cost, Finset.sum_range_succ, Finset.sum_range_zero, distances, List.getElem?_cons_zero, List.getElem?_cons_succ,
    hself] at h0
  norm_num at h0
  rcases h01 0 0 with x00 | x00 <;> rcases h01 0 1 with x01 | x01 <;> rcases h01 1 0 with x10 | x10 <;>
    rcases h01 1 1 with x11 | x11 <;> simp only [x00, x01, x10, x11] at h0 <;> norm_num at h0 <;>
    first
    | (exfalso; linarith)
    | simp [selected, List.range_succ, x00, x01, x10, x11]

/-! ## Examples -/

/-- Three cities on a line. -/
def Ex.cities : List (El (City ℚ)) := [⟨1, 0, ⟨"A", 0⟩⟩, ⟨2, 1, ⟨"B", 4⟩⟩, ⟨3, 2, ⟨"C", 1⟩⟩]

def Ex.cityWins : List (Bool × Win (City ℚ)) := [(false, ⟨2, Ex.cities.take 2⟩), (true, ⟨3, Ex.cities⟩)]

/-- The hypotheses of the theorems on windows are met. -/
example : InOrder (-1) (Ex.cityWins.map (·.2)) ∧ (∀ w ∈ Ex.cityWins, w.2.elements ≠ []) ∧
    (∀ x y : ℚ, 0 ≤ |x - y|) ∧ (∀ x : ℚ, |x - x| = 0) ∧ ShortTour (fun x y : ℚ => |x - y|) Ex.cities := by
  refine ⟨⟨by decide, by decide, trivial⟩, by decide, fun x y => abs_nonneg _, fun x => by simp, [0, 1, 2], List.Perm.refl _, ?_⟩
  decide +kernel

/-- The hypotheses of the refutation are met. -/
example : ∃ a b : El (City ℚ), 30 < |a.data.place - b.data.place| + |b.data.place - a.data.place| :=
  ⟨⟨1, 0, ⟨"A", 0⟩⟩, ⟨2, 1, ⟨"B", 100⟩⟩, by decide +kernel⟩

/-- Bits that follow a tour, and what they select. -/
example : Tour 3 [1, 0, 2] ∧ Follows 3 (bits [1, 0, 2]) [1, 0, 2] ∧ selected Ex.cities (bits [1, 0, 2]) = ["B", "A", "C"] :=
  ⟨List.Perm.swap _ _ _, follows_bits _ _, by decide +kernel⟩

end Sawatabi.Props
