import Verif.Model.Profile
import Verif.Props.Samples

/-!
# C121: profiling, and the random model of the sample
-/

namespace Sawatabi.Profile

open Props Samples

variable {σ α β : Type} {clock : Nat → ℚ} {name : String}

/-- The clock never goes back. -/
def Forward (clock : Nat → ℚ) : Prop := ∀ i j, i ≤ j → clock i ≤ clock j

/-- The function never takes readings of the clock back. -/
def Reads (f : Py (Timed σ) α) : Prop := ∀ w, w.reads ≤ (f.run w).state.reads

theorem perfCounter_run (w : Timed σ) : (perfCounter clock).run w = .ok (clock w.reads) { w with reads := w.reads + 1 } := rfl

theorem profile_run (f : Py (Timed σ) α) (w : Timed σ) : (profile clock name f).run w =
    match f.run { w with reads := w.reads + 1 } with
    | .ok r w' => .ok ⟨r, name, clock w'.reads - clock w.reads⟩ { w' with reads := w'.reads + 1 }
    | .error e w' => .error e w' := by
  unfold profile
  simp only [Py.run_bind, perfCounter_run]
  cases f.run { w with reads := w.reads + 1 } with
  | ok r w' => rfl
  | error e w' => rfl

theorem profile_reads {f : Py (Timed σ) α} (h : Reads f) : Reads (profile clock name f) := by
  intro w
  have h1 := h { w with reads := w.reads + 1 }
  rw [profile_run]
  cases hf : f.run { w with reads := w.reads + 1 } with
  | ok r w' => rw [hf] at h1; simp only [Res.state] at h1 ⊢; omega
  | error e w' => rw [hf] at h1; simp only [Res.state] at h1 ⊢; omega

theorem untimed_reads (f : Py σ α) : Reads (untimed f) := by
  intro w
  unfold untimed
  simp only
  cases f.run w.inner <;> simp [Res.state]

/-- **C121**: a function that does not read the clock does the same with the decorator as without: it leaves the same
state, raises the same exceptions, and its value is under `return`. -/
theorem C121_transparent (f : Py σ α) (w : Timed σ) :
    (∀ a s, f.run w.inner = .ok a s → ∃ t, (profile clock name (untimed f)).run w = .ok ⟨a, name, t⟩ ⟨s, w.reads + 2⟩) ∧
    (∀ e s, f.run w.inner = .error e s → (profile clock name (untimed f)).run w = .error e ⟨s, w.reads + 1⟩) := by
  constructor
  · intro a s h
    refine ⟨clock (w.reads + 1) - clock w.reads, ?_⟩
    rw [profile_run]
    simp only [untimed, h]
  · intro e s h
    rw [profile_run]
    simp only [untimed, h]

/-- The time is never negative. -/
theorem C121_time {f : Py (Timed σ) α} (hc : Forward clock) (hf : Reads f) {w w' : Timed σ} {r : Profiled α}
    (h : (profile clock name f).run w = .ok r w') : 0 ≤ r.executionSec := by
  have h1 := hf { w with reads := w.reads + 1 }
  rw [profile_run] at h
  cases hr : f.run { w with reads := w.reads + 1 } with
  | ok a w1 =>
    rw [hr] at h h1
    cases h
    have := hc w.reads w1.reads (by simp only [Res.state] at h1; omega)
    simp only
    linarith
  | error e w1 => rw [hr] at h; cases h

/-- A function that calls decorated functions takes at least as long as these together. -/
theorem C121_nested {f : Py (Timed σ) α} {g : α → Py (Timed σ) β} {n1 n2 : String} (hc : Forward clock) (hf : Reads f)
    (hg : ∀ a, Reads (g a)) {w w' : Timed σ} {r : Profiled (Profiled α × Profiled β)}
    (h : (profile clock name (do
      let a ← profile clock n1 f
      let b ← profile clock n2 (g a.ret)
      return (a, b))).run w = .ok r w') :
    r.ret.1.executionSec + r.ret.2.executionSec ≤ r.executionSec := by
  rw [profile_run] at h
  simp only [Py.run_bind, profile_run, Py.run_pure] at h
  have h1 := hf ⟨w.inner, w.reads + 1 + 1⟩
  cases hr : f.run ⟨w.inner, w.reads + 1 + 1⟩ with
  | error e w1 => rw [hr] at h; cases h
  | ok a w1 =>
    rw [hr] at h h1
    simp only at h
    have h2 := hg a ⟨w1.inner, w1.reads + 1 + 1⟩
    cases hr2 : (g a).run ⟨w1.inner, w1.reads + 1 + 1⟩ with
    | error e w2 => rw [hr2] at h; cases h
    | ok b w2 =>
      rw [hr2] at h h2
      cases h
      simp only [Res.state] at h1 h2 ⊢
      have a1 := hc w.reads (w.reads + 1) (by omega)
      have a2 := hc w1.reads (w1.reads + 1) (by omega)
      have a3 := hc w2.reads (w2.reads + 1) (by omega)
      linarith

/-! ## The random model -/

theorem onModel_run (f : Py LModel α) (w : Sheet) : (onModel f).run w = match f.run w.model with
    | .ok a m => .ok a { w with model := m }
    | .error e m => .error e { w with model := m } := rfl

theorem addRandom_run {x : VArray} {t : Target × ℚ} {w : Sheet} {a : PyTarget} (ha : t.1.arg x = .ok a) {m' : LModel}
    (h : (Samples.add t.2 x t.1 (w.rng.stream w.rng.used)).run w.model = .ok ⟨⟩ m') :
    (addRandom x t).run w = .ok ⟨⟩ ⟨m', { w.rng with used := w.rng.used + 1 }⟩ := by
  unfold Samples.add at h
  rw [ha] at h
  simp only [Py.run_bind, Py.run_liftE] at h
  unfold addRandom random
  rw [ha]
  simp only [Py.run_bind, Py.run_liftE, Py.run_get, Py.run_set, Py.run_pure, onModel_run, h]

variable {env : Env} {mt : MType} {ns : List String} {vars : List (String × VArray)} {F : Assign → ℚ}

/-- The numbers that the generator gives from the `k`th on, each with its target. -/
def drawn (stream : Nat → ℚ) (ts : List Target) (k : Nat) : List (Target × ℚ) := (ts.zipIdx k).map fun t => (t.1, stream t.2)

theorem addRandom_each {name : String} {sh : List Nat} {vt : VType} (ts : List (Target × ℚ)) {w : Sheet}
    (h : Plain env mt ns vars F w.model) (hok : ∀ t ∈ ts, t.1.Ok sh) (hnd : (ns ++ ts.map fun t => tname name t.1).Nodup) :
    ∃ m', (ts.forM (addRandom (stdArray name sh vt))).run w = .ok ⟨⟩ ⟨m', { w.rng with used := w.rng.used + ts.length }⟩ ∧
      Plain env mt (ns ++ ts.map fun t => tname name t.1) vars
        (fun σ => F σ - ((drawn w.rng.stream (ts.map (·.1)) w.rng.used).map fun c => c.2 * tvalue name σ c.1).sum) m' := by
  induction ts generalizing w ns F with
  | nil => exact ⟨w.model, rfl, by simpa [drawn] using h⟩
  | cons t ts ih =>
    rw [Py.run_forM_cons]
    have hnew : tname name t.1 ∉ ns := fun hc => (List.nodup_append.mp hnd).2.2 _ hc _ (by simp) rfl
    obtain ⟨a, _, ha, _⟩ := arg_ok (name := name) (vt := vt) (hok t (by simp))
    obtain ⟨m1, hr1, _, h1⟩ := h.add t.2 (vt := vt) (hok t (by simp)) hnew (w.rng.stream w.rng.used)
    rw [addRandom_run ha hr1]
    obtain ⟨m2, hr2, h2⟩ := ih (w := ⟨m1, { w.rng with used := w.rng.used + 1 }⟩) h1 (fun c hc => hok c (by simp [hc])) (by
      rw [List.append_assoc]
      simpa using hnd)
    refine ⟨m2, ?_, ?_⟩
    · refine hr2.trans ?_
      simp only [List.length_cons, Res.ok.injEq, Sheet.mk.injEq, Rng.mk.injEq, true_and]
      omega
    · rw [List.append_assoc] at h2
      refine Plain.congr (F := _) (by simpa using h2) fun σ => ?_
      simp only [drawn, List.map_cons, List.zipIdx_cons, List.sum_cons]
      ring

/-- The pairs of the inner loops are those of different indices, each once. -/
theorem mem_targets {n : Nat} {t : Target} : t ∈ targets n ↔
    (∃ i, i < n ∧ t = .one [i]) ∨ ∃ i j, i < j ∧ j < n ∧ t = .two [i] [j] := by
  unfold targets
  simp only [List.mem_append, List.mem_map, List.mem_range, List.mem_flatMap, List.mem_range']
  constructor
  · rintro (⟨i, hi, rfl⟩ | ⟨i, hi, j, ⟨k, hk, rfl⟩, rfl⟩)
    · exact .inl ⟨i, hi, rfl⟩
    · exact .inr ⟨i, _, by omega, by omega, rfl⟩
  · rintro (⟨i, hi, rfl⟩ | ⟨i, j, hij, hj, rfl⟩)
    · exact .inl ⟨i, hi, rfl⟩
    · exact .inr ⟨i, by omega, j, ⟨j - (i + 1), by omega, by omega⟩, rfl⟩

theorem targets_names (n : Nat) : ((targets n).map fun t => tname "x" t).Nodup := by
  unfold targets
  rw [List.map_append, List.nodup_append]
  refine ⟨?_, ?_, ?_⟩
  · rw [List.map_map]
    exact row_nodup "x" n
  · refine List.Nodup.map_on ?_ ?_
    · intro t ht t' ht' he
      simp only [List.mem_flatMap, List.mem_map, List.mem_range'] at ht ht'
      obtain ⟨i, _, j, ⟨k, _, rfl⟩, rfl⟩ := ht
      obtain ⟨i', _, j', ⟨k', _, rfl⟩, rfl⟩ := ht'
      obtain ⟨h1, h2⟩ := tname_two_inj (by decide) (by omega) (by omega) he
      rw [h2, h1]
    · rw [List.nodup_flatMap]
      refine ⟨fun i _ => List.Nodup.map ?_ (List.nodup_range' ..), List.Pairwise.imp ?_ (List.nodup_range (n := n - 1))⟩
      · intro j j' h
        simpa using h
      · intro i i' hne t ht ht'
        obtain ⟨j, _, rfl⟩ := List.mem_map.mp ht
        obtain ⟨j', _, h⟩ := List.mem_map.mp ht'
        simp only [Target.two.injEq, List.cons.injEq, and_true] at h
        exact hne h.1.symm
  · intro a ha b hb hab
    obtain ⟨t, ht, rfl⟩ := List.mem_map.mp ha
    obtain ⟨t', ht', rfl⟩ := List.mem_map.mp hb
    obtain ⟨i, _, rfl⟩ := List.mem_map.mp ht
    simp only [List.mem_flatMap, List.mem_map] at ht'
    obtain ⟨i', _, j, _, rfl⟩ := ht'
    have h1 : '*' ∈ (tname "x" (.two [i'] [j])).toList := tname_two_star
    have h2 := star_label "x" (by decide) i
    have h3 : (tname "x" (.one [i])).toList = (tname "x" (.two [i'] [j])).toList := congrArg String.toList hab
    rw [← h3] at h1
    exact h2 h1

theorem targets_length (n : Nat) : 2 * (targets n).length = n * (n + 1) := by
  have key : ∀ k ≤ n, 2 * ((List.range k).map fun i => n - (i + 1)).sum + k * (k + 1) = 2 * n * k := by
    intro k hk
    induction k with
    | zero => simp
    | succ k ih =>
      have := ih (by omega)
      rw [List.range_succ, List.map_append, List.sum_append]
      simp only [List.map_cons, List.map_nil, List.sum_cons, List.sum_nil]
      obtain ⟨d, rfl⟩ : ∃ d, n = k + 1 + d := ⟨n - (k + 1), by omega⟩
      have e : k + 1 + d - (k + 1) = d := by omega
      rw [e]
      nlinarith
  unfold targets
  rw [List.length_append, List.length_map, List.length_range, List.length_flatMap]
  simp only [List.length_map, List.length_range']
  cases n with
  | zero => rfl
  | succ n =>
    have := key n (by omega)
    simp only [Nat.add_sub_cancel]
    nlinarith

/-- The sum of the drawn numbers, each times its variable or its two variables. -/
def randomSum (stream : Nat → ℚ) (n k : Nat) (σ : Assign) : ℚ :=
  ((drawn stream (targets n) k).map fun c => c.2 * tvalue "x" σ c.1).sum

variable {streams : Int → Nat → ℚ} {clk : Nat → ℚ} {id : String}

/-- The generator after the seed. -/
def seeded (streams : Int → Nat → ℚ) (seed : Option Int) (g : Rng) : Rng :=
  match seed with
  | some s => ⟨streams s, 0⟩
  | none => g

theorem createRandom_run (n : Int) (seed : Option Int) (w : Sheet) : (createRandom streams clk id n seed).run w =
    (do
      let x ← onModel (createVars "x" [n])
      ((targets n.toNat).zipIdx.map fun (t : Target × Nat) => (t.1, clk t.2)).forM (addRandom x) : Py Sheet Unit).run
        ⟨LModel.new .ising id, seeded streams seed w.rng⟩ := by
  unfold createRandom
  cases seed <;> rfl

theorem targets_ok {n : Nat} {t : Target} (h : t ∈ targets n) : t.Ok [n] := by
  rcases mem_targets.mp h with ⟨i, hi, rfl⟩ | ⟨i, j, hij, hj, rfl⟩
  · exact .cons hi .nil
  · refine ⟨.cons (by omega) .nil, .cons hj .nil, ?_⟩
    simp only [ne_eq, List.cons.injEq, and_true]
    omega

/-- With at least one variable the function succeeds, draws a number for each variable and each pair of variables, once
each and in order, and builds the model of these numbers. -/
theorem C121_random (env : Env) {n : Int} (hn : 0 < n) (seed : Option Int) (w : Sheet) :
    ∃ m', (createRandom streams clk id n seed).run w = .ok ()
        ⟨m', ⟨(seeded streams seed w.rng).stream, (seeded streams seed w.rng).used + (targets n.toNat).length⟩⟩ ∧
      2 * (targets n.toNat).length = n.toNat * (n.toNat + 1) ∧
      Made env KnownKeys m' ∧ m'.mtype = .ising ∧ m'.names = (targets n.toNat).map (tname "x") ∧ m'.names.Nodup ∧
      m'.constraints = [] ∧ m'.Filled [] ∧
      ∀ ρ σ, m'.energy ρ σ = -randomSum (seeded streams seed w.rng).stream n.toNat (seeded streams seed w.rng).used σ := by
  obtain ⟨m1, r1, _, h1⟩ := (Plain.new env .ising id).create (name := "x") (sh := [n]) (by simp) (by simpa using hn) (by decide)
  have e : ((targets n.toNat).zipIdx.map fun t => (t.1, clk t.2)).map (·.1) = targets n.toNat := by
    rw [List.map_map]
    exact List.zipIdx_map_fst 0 _
  have e' : ((targets n.toNat).zipIdx.map fun t => (t.1, clk t.2)).map (fun t => tname "x" t.1) =
      (targets n.toNat).map (tname "x") := by
    conv_rhs => rw [← e]
    rw [List.map_map, List.map_map, List.map_map]
    rfl
  obtain ⟨m2, r2, h2⟩ := addRandom_each (name := "x") (sh := [n.toNat]) (vt := .spin)
    ((targets n.toNat).zipIdx.map fun t => (t.1, clk t.2)) (w := ⟨m1, seeded streams seed w.rng⟩) h1 (by
      intro t ht
      obtain ⟨⟨t, k⟩, ht', rfl⟩ := List.mem_map.mp ht
      exact targets_ok (t := t) (List.fst_mem_of_mem_zipIdx (x := (t, k)) ht')) (by
      rw [List.nil_append, e']
      exact targets_names _)
  rw [e, e'] at h2
  refine ⟨m2, ?_, targets_length _, h2.made, h2.mtype, h2.names, h2.unique, h2.constraints, h2.filled, fun ρ σ => ?_⟩
  · rw [createRandom_run]
    simp only [Py.run_bind, onModel_run, r1]
    simp only [List.map_cons, List.map_nil, show MType.ising.vtype = VType.spin from rfl, r2, List.length_map, List.length_zipIdx]
  · rw [h2.energy]
    unfold randomSum
    ring

/-- Without a variable the function raises ValueError, with no number drawn. -/
theorem C121_raises {n : Int} (hn : n ≤ 0) (seed : Option Int) (w : Sheet) :
    (createRandom streams clk id n seed).run w = .error .valueError ⟨LModel.new .ising id, seeded streams seed w.rng⟩ := by
  have h : (createVars "x" [n]).run (LModel.new .ising id) = .error .valueError (LModel.new .ising id) := by
    rw [createVars_run, if_neg (by simp)]
    have : arrayCreate "x" [n] MType.ising.vtype = .error .valueError := by
      unfold arrayCreate
      rw [if_neg (by simp), if_pos (by simpa using hn)]
    rw [show (LModel.new .ising id).mtype = .ising from rfl, this]
  rw [createRandom_run]
  simp only [Py.run_bind, onModel_run, h]

/-- With a seed, the outcome does not depend on what was done before. -/
theorem C121_seed (n s : Int) (w w' : Sheet) :
    (createRandom streams clk id n (some s)).run w = (createRandom streams clk id n (some s)).run w' := by
  rw [createRandom_run, createRandom_run]
  rfl

/-- The physical model has the energy of the drawn numbers as well. -/
theorem C121_physical (env : Env) {n : Int} (hn : 0 < n) (seed : Option Int) (w : Sheet) (clks : Nat → Nat → ℚ)
    (ids : Nat → String) : ∃ w' p m', (createRandom streams clk id n seed).run w = .ok () w' ∧
      (toPhysical env clks ids []).run w'.model = .ok p m' ∧ p.mtype = .ising ∧
      ∀ σ, p.energy σ = -randomSum (seeded streams seed w.rng).stream n.toNat (seeded streams seed w.rng).used σ := by
  obtain ⟨m', r, _, g1, g2, _, g4, g5, g6, g7⟩ := C121_random (streams := streams) (clk := clk) (id := id) env hn seed w
  have hrect := made_rect (fun _ _ h => h) g1
  obtain ⟨p, m2, hp⟩ := (C19_succeeds_partial (env := env) (clks := clks) (ids := ids) hrect g4 g5).mpr g6
  refine ⟨_, p, m2, r, hp, by rw [physical_mtype hp, g2], fun σ => ?_⟩
  rw [C19_energy_partial hrect g5 hp (ρ := fun _ => 0) (fun n q hn => by cases hn), g7]

/-- With the decorator, `return` is `None`: the model is not to be had from the result. -/
theorem C121_profiled {n : Int} (hn : 0 < n) (hc : Forward clock) (seed : Option Int) (w : Timed Sheet) :
    ∃ t w', (createRandomProfiled clock streams clk id n seed).run w = .ok ⟨(), "create_n_variable_random_model", t⟩ w' ∧
      0 ≤ t ∧ (createRandom streams clk id n seed).run w.inner = .ok () w'.inner := by
  obtain ⟨m', r, _⟩ := C121_random (streams := streams) (clk := clk) (id := id) ⟨0, fun _ => ""⟩ hn seed w.inner
  obtain ⟨t, h⟩ := (C121_transparent (clock := clock) (name := "create_n_variable_random_model") _ w).1 _ _ r
  exact ⟨t, _, h, C121_time hc (untimed_reads _) h, r⟩

/-! ## Examples -/

namespace Ex

/-- A clock of seconds. -/
def ticks : Nat → ℚ := fun k => 2 * k

theorem ticks_forward : Forward ticks := fun i j h => by
  unfold ticks
  have : (i : ℚ) ≤ j := by exact_mod_cast h
  linarith

/-- Hypotheses of `C121_time` and `C121_nested`: a function that increases a counter, and one that raises. -/
def count : Py Nat Nat := do
  let k ← get
  set (k + 1)
  return k

example : (profile ticks "count" (untimed count)).run ⟨5, 3⟩ = .ok ⟨5, "count", 2⟩ ⟨6, 5⟩ := by
  rw [profile_run]
  simp only [untimed, count, ticks, Py.run_bind, Py.run_get, Py.run_set, Py.run_pure]
  norm_num

example : (profile ticks "outer" (do
    let a ← profile ticks "first" (untimed count)
    let b ← profile ticks "second" (untimed count)
    return (a, b))).run ⟨5, 0⟩ = .ok ⟨(⟨5, "first", 2⟩, ⟨6, "second", 2⟩), "outer", 10⟩ ⟨7, 6⟩ := by
  rw [profile_run]
  simp only [profile_run, untimed, count, ticks, Py.run_bind, Py.run_get, Py.run_set, Py.run_pure]
  norm_num

example : targets 3 = [.one [0], .one [1], .one [2], .two [0] [1], .two [0] [2], .two [1] [2]] := by decide

/-- Two variables and the numbers 1, 2, 3: a case of `C121_random`, `C121_physical` and `C121_profiled`. -/
example (σ : Assign) : randomSum (fun k => k + 1) 2 0 σ = σ "x[0]" + 2 * σ "x[1]" + 3 * (σ "x[0]" * σ "x[1]") := by
  have h0 : arrayLabel "x" [0] = "x[0]" := by decide +kernel
  have h1 : arrayLabel "x" [1] = "x[1]" := by decide +kernel
  rw [← h0, ← h1]
  unfold randomSum
  have : drawn (fun k => (k : ℚ) + 1) (targets 2) 0 = [(.one [0], 1), (.one [1], 2), (.two [0] [1], 3)] := by decide +kernel
  rw [this]
  simp only [List.map_cons, List.map_nil, List.sum_cons, List.sum_nil, tvalue]
  ring

end Ex

end Sawatabi.Profile
