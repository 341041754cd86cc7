import Verif.Lemmas.NppTies
import Verif.Props.NppFilter
import Mathlib.Algebra.Order.BigOperators.Group.List

/-!
# C114: number partitioning where several numbers have the same time
-/

namespace Sawatabi.Props

open Stream NppStream

variable {now : ℚ} {render : El ℚ → String} {env : Env} {clks : Nat → Nat → ℚ} {ids : Nat → String}
  {solver : Physical → Except Err (List (Sample × ℚ))} {alg : Algorithm LModel ℚ} {id : String} {W : List (El ℚ)}

theorem due_represents {k : Nat} {m : LModel} (h : DueTracks k W m) : RepresentsTied m W := by
  intro ρ σ
  rw [h.2.energy, due_closed]

theorem sliding_ordered {E : List (El ℚ)} (hE : Ordered E) {ws : List (Win ℚ)} {a b : ℚ} (hs : Sliding E a b ws) :
    ∀ w ∈ ws, Ordered (sorted w.elements) := by
  induction ws generalizing a b with
  | nil => intro w hw; cases hw
  | cons u ws ih =>
    obtain ⟨a', b', _, _, hc, hr⟩ := hs
    intro w hw
    rcases List.mem_cons.mp hw with rfl | hw
    · rw [cut_slice hE hc]
      exact hE.sublist List.filter_sublist
    · exact ih hr w hw

/-! ## The models -/

/-- Over windows that slide along a stream in which several numbers may have the same time, the model given to the solver is
that of the numbers of the window, except that numbers of the same time do not interact. -/
theorem C114_window {E : List (El ℚ)} (hE : Ordered E) (halg : alg = .window ∨ alg = .delta) {ws : List (Bool × Win ℚ)}
    {a b : ℚ} (hs : Sliding E a b (ws.map (·.2))) (ho : InOrder (-1) (ws.map (·.2))) :
    ∃ os st', (processAll alg (fns now render env clks ids solver) (LModel.new .ising id) ws).run St.start = .ok os st' ∧
      os.length = ws.length ∧
      List.Forall₂ (fun w c => c.2.Perm w.2.elements ∧ Ordered c.2 ∧ RepresentsTied c.1 c.2) ws (solveArgs st'.calls) := by
  obtain ⟨os, st', h1, h2, h3⟩ := due_sliding_start (now := now) (render := render) (env := env) (clks := clks) (ids := ids)
    (solver := solver) hE halg hs ho id
  refine ⟨os, st', h1, by simpa using h2.length_eq.symm, ?_⟩
  rw [List.forall₂_map_left_iff] at h3
  have hmem := sliding_ordered hE hs
  generalize solveArgs st'.calls = cs at h3 ⊢
  clear hs ho h1 h2
  induction h3 with
  | nil => exact .nil
  | @cons w c ws cs hwc _ ih =>
    refine .cons ?_ (ih fun w hw => hmem w (by simp [hw]))
    obtain ⟨h4, k, h5⟩ := hwc
    rw [h4]
    exact ⟨sorted_perm _, hmem w.2 (by simp), due_represents h5⟩

/-- The same for all numbers so far, with the incremental algorithm. -/
theorem C114_incremental {ws : List (Bool × Win ℚ)} {parts : List (List (El ℚ))}
    (hp : List.Forall₂ (fun w part => w.2.elements.Perm part ∧ part ≠ []) ws parts) (hB : Batches parts)
    (ho : InOrder (-1) (ws.map (·.2))) :
    ∃ os st', (processAll .incremental (fns now render env clks ids solver) (LModel.new .ising id) ws).run St.start = .ok os st' ∧
      os.length = ws.length ∧ (solveArgs st'.calls).length = ws.length ∧
      ∀ (i : Nat) c, (solveArgs st'.calls)[i]? = some c → c.2 = (parts.take (i + 1)).flatten ∧ RepresentsTied c.1 c.2 := by
  obtain ⟨os, st', new, h1, h2, h3, h4⟩ := due_incremental_run (now := now) (render := render) (env := env) (clks := clks) (ids := ids)
    (solver := solver) (st := St.start) (initial := LModel.new .ising id) (k := 0) (prev := []) hp hB.1
    (List.pairwise_cons.mpr ⟨fun _ _ _ ha => (List.not_mem_nil ha).elim, hB.2⟩) ho rfl (due_new id) (fun _ _ => Nat.zero_le _)
  have h2 : solveArgs st'.calls = new := by rw [h2]; rfl
  refine ⟨os, st', h1, ?_⟩
  rw [h2]
  refine ⟨by rw [← h3.length_eq, growing_length, hp.length_eq], by rw [← h4.length_eq, growing_length, hp.length_eq], fun i c hc => ?_⟩
  obtain ⟨W, hW⟩ : ∃ W, (growing [] parts)[i]? = some W := by
    have : i < (growing [] parts).length := by
      rw [h4.length_eq]
      exact (List.getElem?_eq_some_iff.mp hc).1
    exact ⟨_, List.getElem?_eq_getElem this⟩
  obtain ⟨e, k, hk⟩ := forall₂_at h4 hW hc
  rw [e]
  exact ⟨by simpa using growing_at hW, due_represents hk⟩

/-- If all times differ, this is the model of partitioning the numbers. -/
theorem C114_agrees (hW : Increasing W) {m : LModel} : RepresentsTied m W → Represents m W := by
  intro h ρ σ hσ
  rw [h ρ σ]
  congr 1
  have hnd : (W.map (·.ts)).Nodup := by
    rw [List.nodup_iff_pairwise_ne, List.pairwise_map]
    exact hW.imp fun {a b} hab => hab.1.ne
  unfold tied instants squares
  rw [List.Nodup.dedup hnd, List.map_map]
  congr 1
  apply List.map_congr_left
  intro e he
  have : W.filter (fun x => decide (x.ts = e.ts)) = [e] := by
    have key : ∀ l : List (El ℚ), l.Nodup → (∀ x ∈ l, ∀ y ∈ l, x.ts = y.ts → x = y) → e ∈ l → l.filter (fun x => decide (x.ts = e.ts)) = [e] := by
      intro l
      induction l with
      | nil => intro _ _ h; cases h
      | cons a l ih =>
        intro hn hu hm
        obtain ⟨n1, n2⟩ := List.nodup_cons.mp hn
        rw [List.filter_cons]
        by_cases hae : a.ts = e.ts
        · have : a = e := hu a (by simp) e hm hae
          subst this
          simp only [decide_true, if_true]
          congr 1
          rw [List.filter_eq_nil_iff]
          intro x hx
          rw [decide_eq_true_eq]
          intro hc
          exact n1 (hu x (by simp [hx]) a (by simp) hc ▸ hx)
        · simp only [hae, decide_false, Bool.false_eq_true, if_false]
          refine ih n2 (fun x hx y hy => hu x (by simp [hx]) y (by simp [hy])) ?_
          rcases List.mem_cons.mp hm with rfl | hm
          · exact absurd rfl hae
          · exact hm
    refine key W (ordered_nodup hW.ordered) (fun x hx y hy hxy => ?_) he
    by_contra hne
    rcases increasing_lt hW hx hy hne with h1 | h1
    · exact h1.ne hxy
    · exact h1.ne' hxy
  simp only [Function.comp, this, signedSum, List.map_cons, List.map_nil, List.sum_cons, List.sum_nil, add_zero]
  rcases hσ (lab e) with h1 | h1 <;> rw [h1] <;> ring

/-! ## The answers -/

/-- Spins for the numbers of a window that are best for the model in which numbers of the same time do not interact. -/
def TiedOptimal (W : List (El ℚ)) (f : String → ℤ) : Prop :=
  (∀ v, f v = 1 ∨ f v = -1) ∧
  ∀ g : String → ℤ, (∀ v, g v = 1 ∨ g v = -1) →
    signedSum (fun v => (f v : ℚ)) W ^ 2 - tied (fun v => (f v : ℚ)) W ≤ signedSum (fun v => (g v : ℚ)) W ^ 2 - tied (fun v => (g v : ℚ)) W

/-- The report: the two parts that such spins determine. -/
structure TiedAnswer (W : List (El ℚ)) (r : Report) : Prop where
  input : r.input = W.map (·.data)
  split : ∃ f, TiedOptimal W f ∧ r.setP = part 1 r.input (W.map fun e => f (lab e)) ∧
    r.setN = part (-1) r.input (W.map fun e => f (lab e)) ∧ r.diff = difference r.input (W.map fun e => f (lab e))
  sums : r.sumP = r.setP.sum ∧ r.sumN = r.setN.sum

/-- What a window yields: a report if no number is zero and there are two times; if some number is zero (or there are numbers
that are not zero at one time only), there is a failure. -/
def TiedYields (W : List (El ℚ)) (o : List (Output Report)) : Prop :=
  (TwoInstants W ∧ (∀ e ∈ W, e.data ≠ 0) → ∃ r, o = [.result r] ∧ TiedAnswer W r) ∧
  (TwoInstants W ∧ (∃ e ∈ W, e.data = 0) → o = [.failedUnmap .keyError]) ∧
  (¬ TwoInstants W → o = [.failedSolve .valueError])

theorem due_pair : (∃ q ∈ duePairs W, q.1.data * q.2.data ≠ 0) ↔ TwoInstants W := by
  constructor
  · rintro ⟨q, hq, h0⟩
    obtain ⟨h1, h2, h3⟩ := mem_due.mp hq
    exact ⟨q.1, h1, q.2, h2, h3, left_ne_zero_of_mul h0, right_ne_zero_of_mul h0⟩
  · rintro ⟨e, he, e', he', hlt, h0, h0'⟩
    exact ⟨(e, e'), mem_due.mpr ⟨he, he', hlt⟩, mul_ne_zero h0 h0'⟩

theorem due_active (h2 : TwoInstants W) {e : El ℚ} (he : e ∈ W) : Active (duePairs W) e ↔ e.data ≠ 0 := by
  constructor
  · rintro ⟨q, _, h0, rfl | rfl⟩
    · exact left_ne_zero_of_mul h0
    · exact right_ne_zero_of_mul h0
  · intro h0
    obtain ⟨a, ha, b, hb, hab, a0, b0⟩ := h2
    rcases lt_trichotomy e.ts a.ts with h | h | h
    · exact ⟨(e, a), mem_due.mpr ⟨he, ha, h⟩, mul_ne_zero h0 a0, .inl rfl⟩
    · exact ⟨(e, b), mem_due.mpr ⟨he, hb, h ▸ hab⟩, mul_ne_zero h0 b0, .inl rfl⟩
    · exact ⟨(a, e), mem_due.mpr ⟨ha, he, h⟩, mul_ne_zero a0 h0, .inr rfl⟩

theorem tied_optimal {f : String → ℤ} (h : LiveOptimal (duePairs W) f) : TiedOptimal W f := by
  refine ⟨h.1, fun g hg => ?_⟩
  have := h.2 g hg
  rw [← due_closed, ← due_closed]
  linarith

theorem due_yields {o : List (Output Report)} (hW : Ordered W)
    (h : ∃ p, PhysicOf (fun σ => liveSum σ (duePairs W)) p ∧ o = [outputOf exactSolver p W]) : TiedYields W o := by
  obtain ⟨p, hp, rfl⟩ := h
  obtain ⟨h1, h2, h3⟩ := live_cases (h := ⟨W, duePairs W⟩) hW
    ⟨List.Sublist.refl _, fun q hq => mem_due.mp hq, due_nodup hW, fun j hj i hi hlt => mem_due.mpr ⟨hj, hi, hlt⟩⟩ hp
  simp only at h1 h2 h3
  refine ⟨fun ⟨a, b⟩ => ?_, fun ⟨a, e, he, b⟩ => ?_, fun a => ?_⟩
  · obtain ⟨r, hr, g1, ⟨f, f1, f2⟩, g2⟩ := h1 ⟨due_pair.mpr a, fun e he => (due_active a he).mpr (b e he)⟩
    exact ⟨r, hr, g1, ⟨f, tied_optimal f1, f2⟩, g2⟩
  · exact h2 ⟨due_pair.mpr a, e, he, fun hc => (due_active a he).mp hc b⟩
  · apply h3
    intro q hq
    by_contra h0
    exact a (due_pair.mp ⟨q, hq, h0⟩)

/-- With the exact solver, over windows that slide along a stream in which several numbers may have the same time. -/
theorem C114_answer {E : List (El ℚ)} (hE : Ordered E) (halg : alg = .window ∨ alg = .delta) {ws : List (Bool × Win ℚ)}
    {a b : ℚ} (hs : Sliding E a b (ws.map (·.2))) (ho : InOrder (-1) (ws.map (·.2))) :
    ∃ os st', (processAll alg (fns now render env clks ids exactSolver) (LModel.new .ising id) ws).run St.start = .ok os st' ∧
      List.Forall₂ (fun w o => TiedYields (sorted w.2.elements) o) ws os := by
  obtain ⟨os, st', h1, h2, h3⟩ := due_sliding_start (now := now) (render := render) (env := env) (clks := clks) (ids := ids)
    (solver := exactSolver) hE halg hs ho id
  refine ⟨os, st', h1, ?_⟩
  have hinc := sliding_ordered hE hs
  rw [List.forall₂_map_left_iff] at h2
  clear hs ho h1 h3
  induction h2 with
  | nil => exact .nil
  | @cons w o ws os hwo _ ih =>
    exact .cons (due_yields (hinc w.2 (by simp)) hwo) (ih fun w hw => hinc w (by simp [hw]))

/-- The same for all numbers so far, with the incremental algorithm. -/
theorem C114_answer_incremental {ws : List (Bool × Win ℚ)} {parts : List (List (El ℚ))}
    (hp : List.Forall₂ (fun w part => w.2.elements.Perm part ∧ part ≠ []) ws parts) (hB : Batches parts)
    (ho : InOrder (-1) (ws.map (·.2))) :
    ∃ os st', (processAll .incremental (fns now render env clks ids exactSolver) (LModel.new .ising id) ws).run St.start = .ok os st' ∧
      os.length = ws.length ∧ ∀ (i : Nat) o, os[i]? = some o → TiedYields (parts.take (i + 1)).flatten o := by
  obtain ⟨os, st', new, h1, _, h3, _⟩ := due_incremental_run (now := now) (render := render) (env := env) (clks := clks) (ids := ids)
    (solver := exactSolver) (st := St.start) (initial := LModel.new .ising id) (k := 0) (prev := []) hp hB.1
    (List.pairwise_cons.mpr ⟨fun _ _ _ ha => (List.not_mem_nil ha).elim, hB.2⟩) ho rfl (due_new id) (fun _ _ => Nat.zero_le _)
  have hlen : os.length = ws.length := by rw [← h3.length_eq, growing_length, hp.length_eq]
  refine ⟨os, st', h1, hlen, fun i o hio => ?_⟩
  obtain ⟨W, hW⟩ : ∃ W, (growing [] parts)[i]? = some W := by
    have : i < (growing [] parts).length := by
      rw [h3.length_eq]
      exact (List.getElem?_eq_some_iff.mp hio).1
    exact ⟨_, List.getElem?_eq_getElem this⟩
  have hWe := growing_at hW
  rw [List.nil_append] at hWe
  rw [← hWe]
  refine due_yields ?_ (forall₂_at h3 hW hio)
  rw [hWe]
  have : parts.flatten = (parts.take (i + 1)).flatten ++ (parts.drop (i + 1)).flatten := by
    rw [← List.flatten_append, List.take_append_drop]
  have hI := hB.1
  rw [this] at hI
  exact (List.pairwise_append.mp hI).1

theorem signedSum_abs {f : String → ℤ} (hf : ∀ v, f v = 1 ∨ f v = -1) (l : List (El ℚ)) :
    |signedSum (fun v => (f v : ℚ)) l| ≤ (l.map fun e => |e.data|).sum := by
  induction l with
  | nil => simp [signedSum]
  | cons e l ih =>
    have h1 : signedSum (fun v => (f v : ℚ)) (e :: l) = e.data * (f (lab e) : ℚ) + signedSum (fun v => (f v : ℚ)) l := by
      simp [signedSum]
    have h2 : |e.data * (f (lab e) : ℚ)| = |e.data| := by
      rcases hf (lab e) with h | h <;> rw [h] <;> simp
    rw [h1, List.map_cons, List.sum_cons]
    exact (abs_add_le _ _).trans (by rw [h2]; linarith)

theorem tied_gap {f g : String → ℤ} (hf : ∀ v, f v = 1 ∨ f v = -1) (hg : ∀ v, g v = 1 ∨ g v = -1) (W : List (El ℚ)) :
    tied (fun v => (f v : ℚ)) W ≤ tied (fun v => (g v : ℚ)) W + crowd W := by
  unfold tied crowd
  rw [← List.sum_map_add]
  apply List.sum_le_sum
  intro t _
  simp only
  generalize W.filter (fun e => decide (e.ts = t)) = l
  split
  · rename_i h
    rw [add_zero]
    rcases l with _ | ⟨e, _ | ⟨e', l⟩⟩
    · simp [signedSum]
    · simp only [signedSum, List.map_cons, List.map_nil, List.sum_cons, List.sum_nil, add_zero]
      rcases hf (lab e) with h1 | h1 <;> rcases hg (lab e) with h2 | h2 <;> rw [h1, h2] <;> simp
    · simp at h
  · have h1 := signedSum_abs hf l
    have h2 : signedSum (fun v => (f v : ℚ)) l ^ 2 ≤ (l.map fun e => |e.data|).sum ^ 2 := by
      rw [← sq_abs]
      exact pow_le_pow_left₀ (abs_nonneg _) h1 2
    have h3 := sq_nonneg (signedSum (fun v => (g v : ℚ)) l)
    linarith

/-- How far the reported partition can be from an optimal one: the square of its difference exceeds that of any other
partition by no more than the numbers that share their times allow. In particular it is optimal if no two numbers do. -/
theorem C114_gap {r : Report} (hW : Ordered W) (h : TiedAnswer W r) {s : List ℤ} (hs : Signs r.input s) :
    r.diff ^ 2 ≤ difference r.input s ^ 2 + crowd W := by
  obtain ⟨h1, ⟨f, ⟨hf, hmin⟩, _, _, hd⟩, _⟩ := h
  rw [h1] at hs hd ⊢
  obtain ⟨g, hg, rfl⟩ := exists_assign hW hs
  have h2 := hmin g hg
  have h3 := tied_gap hf hg W
  rw [hd]
  unfold difference
  rw [sq_abs, sq_abs, ← signedSum_signs, ← signedSum_signs]
  linarith

/-! ## Where the answers are not optimal -/

/-- The numbers 3, 3 of one time and a later 1: the parts reported differ by 5, though 3 and 3, 1 differ by 1 only. -/
theorem C114_optimal_refuted :
    Ex.nppRun .window [(false, ⟨2, [⟨1, 0, 3⟩, ⟨1, 1, 3⟩, ⟨2, 2, 1⟩]⟩)] = some [[.result ⟨[3, 3, 1], [1], [3, 3], 1, 6, 5⟩]] ∧
    ¬ Optimal [3, 3, 1] 5 := by
  refine ⟨by decide +kernel, fun h => ?_⟩
  have := h.2 [1, -1, -1] ⟨rfl, by decide⟩
  revert this
  decide +kernel

/-! ## Examples -/

/-- Numbers of which two pairs have the same time. -/
def Ex.ties : List (El ℚ) := [⟨1, 0, 3⟩, ⟨1, 1, 3⟩, ⟨2, 2, 1⟩, ⟨3, 3, 4⟩, ⟨3, 4, 2⟩]

/-- Two windows of it, and a last one without different times. -/
def Ex.tiedWins : List (Bool × Win ℚ) :=
  [(false, ⟨2, [⟨1, 1, 3⟩, ⟨2, 2, 1⟩, ⟨1, 0, 3⟩]⟩), (true, ⟨3, [⟨3, 4, 2⟩, ⟨2, 2, 1⟩, ⟨3, 3, 4⟩]⟩), (false, ⟨4, [⟨3, 3, 4⟩, ⟨3, 4, 2⟩]⟩)]

example : Ordered Ex.ties ∧ ¬ Increasing Ex.ties := by unfold Ordered Increasing; decide +kernel

example : Sliding Ex.ties 0 0 (Ex.tiedWins.map (·.2)) ∧ InOrder (-1) (Ex.tiedWins.map (·.2)) :=
  ⟨⟨1, 3, by norm_num, by norm_num, ⟨by decide +kernel, by decide⟩, 2, 4, by norm_num, by norm_num, ⟨by decide +kernel, by decide⟩,
    3, 5, by norm_num, by norm_num, ⟨by decide +kernel, by decide⟩, trivial⟩,
   by norm_num [Ex.tiedWins, InOrder]⟩

example : Batches [[⟨1, 0, 3⟩, ⟨1, 1, 3⟩], [⟨2, 2, 1⟩, ⟨3, 3, 4⟩, ⟨3, 4, 2⟩]] := by
  unfold Batches Ordered
  decide +kernel

example : Ex.nppRun .window Ex.tiedWins = some
    [[.result ⟨[3, 3, 1], [1], [3, 3], 1, 6, 5⟩], [.result ⟨[1, 4, 2], [1], [4, 2], 1, 6, 5⟩], [.failedSolve .valueError]] := by
  decide +kernel

example : TwoInstants [⟨1, 0, 3⟩, ⟨1, 1, 3⟩, ⟨2, 2, 1⟩] ∧ ∀ e ∈ ([⟨1, 0, 3⟩, ⟨1, 1, 3⟩, ⟨2, 2, 1⟩] : List (El ℚ)), e.data ≠ 0 :=
  ⟨⟨⟨1, 0, 3⟩, by simp, ⟨2, 2, 1⟩, by simp, by norm_num, by norm_num, by norm_num⟩, by decide +kernel⟩

/-- The square 25 of the difference reported and the square 1 of the best one, and the bound 36 for their distance. -/
example : crowd [⟨1, 0, 3⟩, ⟨1, 1, 3⟩, ⟨2, 2, 1⟩] = 36 ∧ difference [3, 3, 1] [1, -1, -1] = 1 := by decide +kernel

end Sawatabi.Props
