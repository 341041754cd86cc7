import Verif.Lemmas.NppRun

/-!
# C80, C81: number partitioning over a stream
-/

namespace Sawatabi.Props

open Stream NppStream

variable {now : ℚ} {render : El ℚ → String} {env : Env} {clks : Nat → Nat → ℚ} {ids : Nat → String}
  {solver : Physical → Except Err (List (Sample × ℚ))} {alg : Algorithm LModel ℚ} {id : String}

theorem forall₂_at {α β : Type} {R : α → β → Prop} {l : List α} {l' : List β} (h : List.Forall₂ R l l') {i : Nat} {a : α} {b : β}
    (ha : l[i]? = some a) (hb : l'[i]? = some b) : R a b := by
  induction h generalizing i with
  | nil => simp at ha
  | cons h1 _ ih =>
    cases i with
    | zero => simp at ha hb; rw [← ha, ← hb]; exact h1
    | succ i => exact ih (by simpa using ha) (by simpa using hb)

/-! ## C80: the model is that of the window -/

theorem tracks_represents {k : Nat} {W : List (El ℚ)} {m : LModel} (h : Tracks k W m) : Represents m W := by
  intro ρ σ hσ
  rw [h.2.energy, pairs_spin hσ]

/-- Over windows that slide along a stream, the application handles every window, and whatever the solver does (it may
fail), the model it is given next is that of the numbers of the window: nothing is left of earlier windows. -/
theorem C80_window {E : List (El ℚ)} (hE : Increasing E) (halg : alg = .window ∨ alg = .delta) {ws : List (Bool × Win ℚ)}
    {a b : ℚ} (hs : Sliding E a b (ws.map (·.2))) (ho : InOrder (-1) (ws.map (·.2))) :
    ∃ os st', (processAll alg (fns now render env clks ids solver) (LModel.new .ising id) ws).run St.start = .ok os st' ∧
      os.length = ws.length ∧
      List.Forall₂ (fun w c => c.2.Perm w.2.elements ∧ Increasing c.2 ∧ Represents c.1 c.2) ws (solveArgs st'.calls) := by
  obtain ⟨os, st', h1, h2, h3⟩ := sliding_start (now := now) (render := render) (env := env) (clks := clks) (ids := ids)
    (solver := solver) hE halg hs ho id
  refine ⟨os, st', h1, by simpa using h2.length_eq.symm, ?_⟩
  have hcut : ∀ {ws : List (Win ℚ)} {a b : ℚ}, Sliding E a b ws → ∀ w ∈ ws, ∃ a b, Cut E a b w := by
    intro ws
    induction ws with
    | nil => intro a b _ w hw; cases hw
    | cons u ws ih =>
      rintro a b ⟨a', b', _, _, hc, hr⟩ w hw
      rcases List.mem_cons.mp hw with rfl | hw
      · exact ⟨a', b', hc⟩
      · exact ih hr w hw
  rw [List.forall₂_map_left_iff] at h3
  have hmem := hcut hs
  generalize solveArgs st'.calls = cs at h3 ⊢
  clear hcut hs ho h1 h2
  induction h3 with
  | nil => exact .nil
  | @cons w c ws cs hwc _ ih =>
    refine .cons ?_ (ih fun w hw => hmem w (by simp [hw]))
    obtain ⟨h4, k, h5⟩ := hwc
    obtain ⟨a, b, hc⟩ := hmem w.2 (by simp)
    rw [h4]
    refine ⟨sorted_perm _, ?_, tracks_represents h5⟩
    rw [cut_slice hE.ordered hc]
    exact hE.sublist List.filter_sublist

/-- With the incremental algorithm, over batches of a stream: the model is that of all numbers so far. -/
theorem C80_incremental {ws : List (Bool × Win ℚ)} {parts : List (List (El ℚ))}
    (hp : List.Forall₂ (fun w part => w.2.elements.Perm part ∧ part ≠ []) ws parts) (hI : Increasing parts.flatten)
    (ho : InOrder (-1) (ws.map (·.2))) :
    ∃ os st', (processAll .incremental (fns now render env clks ids solver) (LModel.new .ising id) ws).run St.start = .ok os st' ∧
      os.length = ws.length ∧ (solveArgs st'.calls).length = ws.length ∧
      ∀ (i : Nat) c, (solveArgs st'.calls)[i]? = some c → c.2 = (parts.take (i + 1)).flatten ∧ Represents c.1 c.2 := by
  obtain ⟨os, st', new, h1, h2, h3, h4⟩ := incremental_run (now := now) (render := render) (env := env) (clks := clks) (ids := ids)
    (solver := solver) (st := St.start) (initial := LModel.new .ising id) (k := 0) (prev := []) hp hI ho rfl (tracks_new id)
    (fun _ _ => Nat.zero_le _)
  have h2 : solveArgs st'.calls = new := by rw [h2]; rfl
  refine ⟨os, st', h1, ?_⟩
  rw [h2]
  refine ⟨?_, ?_, ?_⟩
  · rw [← h3.length_eq, growing_length, hp.length_eq]
  · rw [← h4.length_eq, growing_length, hp.length_eq]
  · intro i c hc
    obtain ⟨W, hW⟩ : ∃ W, (growing [] parts)[i]? = some W := by
      have : i < (growing [] parts).length := by
        rw [h4.length_eq]
        exact (List.getElem?_eq_some_iff.mp hc).1
      exact ⟨_, List.getElem?_eq_getElem this⟩
    obtain ⟨e1, k, e2⟩ := forall₂_at h4 hW hc
    rw [e1, ← List.nil_append (parts.take (i + 1)).flatten, ← growing_at hW]
    exact ⟨rfl, tracks_represents e2⟩

/-! ## C81: exact solutions -/

/-- The answer for a window. -/
structure Answer (W : List (El ℚ)) (r : Report) : Prop where
  input : r.input = W.map (·.data)
  split : ∃ signs, Signs r.input signs ∧ r.setP = part 1 r.input signs ∧ r.setN = part (-1) r.input signs ∧
    r.diff = difference r.input signs
  sums : r.sumP = r.setP.sum ∧ r.sumN = r.setN.sum
  optimal : Optimal r.input r.diff

theorem exists_assign {W : List (El ℚ)} (hW : Ordered W) {signs : List ℤ} (h : Signs (W.map (·.data)) signs) :
    ∃ f : String → ℤ, (∀ v, f v = 1 ∨ f v = -1) ∧ W.map (fun e => f (lab e)) = signs := by
  obtain ⟨h1, h2⟩ := h
  induction W generalizing signs with
  | nil =>
    cases signs with
    | nil => exact ⟨fun _ => 1, fun _ => .inl rfl, rfl⟩
    | cons s signs => cases h1
  | cons e W ih =>
    obtain ⟨g1, g2⟩ := List.pairwise_cons.mp hW
    cases signs with
    | nil => cases h1
    | cons s signs =>
      obtain ⟨f, hf1, hf2⟩ := ih g2 (signs := signs) (by simpa using h1) (fun x hx => h2 x (by simp [hx]))
      refine ⟨fun v => if v = lab e then s else f v, fun v => ?_, ?_⟩
      · by_cases hv : v = lab e
        · simpa [hv] using h2 s (by simp)
        · simpa [hv] using hf1 v
      · simp only [List.map_cons, if_true]
        congr 1
        rw [← hf2]
        apply List.map_congr_left
        intro x hx
        rw [if_neg]
        intro hc
        exact absurd (lab_inj hc) (g1 x hx).2.ne'

theorem signedSum_signs (W : List (El ℚ)) (f : String → ℤ) :
    signedSum (fun v => (f v : ℚ)) W =
      (List.zipWith (fun (n : ℚ) (s : ℤ) => n * (s : ℚ)) (W.map (·.data)) (W.map fun e => f (lab e))).sum := by
  unfold signedSum
  congr 1
  induction W with
  | nil => rfl
  | cons e W ih => exact congrArg (_ :: ·) ih

theorem window_cases {W : List (El ℚ)} {p : Physical} (hW : Increasing W) (h : Physic W p) :
    (TwoNonzero W ∧ (∀ e ∈ W, e.data ≠ 0) → ∃ r, outputOf exactSolver p W = .result r ∧ Answer W r) ∧
    (TwoNonzero W ∧ (∃ e ∈ W, e.data = 0) → outputOf exactSolver p W = .failedUnmap .keyError) ∧
    (¬ TwoNonzero W → outputOf exactSolver p W = .failedSolve .valueError) := by
  have solved : TwoNonzero W → ∃ res, exactSolver p = .ok res ∧ res ≠ [] ∧
      (∀ r ∈ res, r.2 = p.energy r.1.assign ∧ (dkeys r.1).Nodup ∧ (∀ v, v ∈ dkeys r.1 ↔ p.Uses v) ∧
        ∀ kv ∈ r.1, p.mtype.vtype.Domain kv.2) ∧
      ∀ f : String → ℤ, (∀ v, p.Uses v → p.mtype.vtype.Domain (f v)) → ∃ r ∈ res, ∀ v, p.Uses v → dget r.1 v = some (f v) := by
    intro h2
    have hne : ¬ Props.Empty p := fun hc => (h.empty hW).mp hc h2
    obtain ⟨res, log', hr⟩ := C57_success_partial (log := []) hne h.keyed
    obtain ⟨g1, g2⟩ := C57_all_assignments_partial hne h.keyed hr
    refine ⟨res, by unfold exactSolver; rw [hr], ?_, g1, g2⟩
    obtain ⟨r, hr', _⟩ := g2 (fun _ => 1) (by rw [h.mtype]; intro _ _; exact .inl rfl)
    exact List.ne_nil_of_mem hr'
  refine ⟨?_, ?_, ?_⟩
  · rintro ⟨h2, h0⟩
    obtain ⟨res, hres, hne, g1, g2⟩ := solved h2
    obtain ⟨r, hr, hbest, hmin⟩ := best_ok hne
    obtain ⟨e1, e2, e3, e4⟩ := g1 r hr
    have huses : ∀ e ∈ W, p.Uses (lab e) := by
      intro e he
      obtain ⟨a, ha, b, hb, hab, da, db⟩ := h2
      refine (h.uses hW).mpr ⟨(at_ne_zero hW).mpr ⟨e, he, rfl, h0 e he⟩, ?_⟩
      by_cases hea : e.idx = a.idx
      · exact ⟨lab b, fun hc => hab (by have := lab_inj hc; omega), (at_ne_zero hW).mpr ⟨b, hb, rfl, db⟩⟩
      · exact ⟨lab a, fun hc => hea (lab_inj hc).symm, (at_ne_zero hW).mpr ⟨a, ha, rfl, da⟩⟩
    let f : String → ℤ := fun v => (dget r.1 v).getD 0
    have hf : ∀ e ∈ W, dget r.1 (lab e) = some (f (lab e)) ∧ (f (lab e) = 1 ∨ f (lab e) = -1) := by
      intro e he
      obtain ⟨v, hv⟩ := (dget_isSome_iff r.1 (lab e)).mpr ((e3 _).mpr (huses e he))
      have hd := e4 _ (dget_mem hv)
      rw [h.mtype] at hd
      refine ⟨by simp only [f, hv, Option.getD_some], ?_⟩
      simp only [f, hv, Option.getD_some]
      simpa [MType.vtype, VType.Domain] using hd
    let signs := W.map fun e => f (lab e)
    have hfa : List.Forall₂ (fun e s => dget r.1 (lab e) = some s ∧ (s = 1 ∨ s = -1)) W signs := by
      rw [List.forall₂_map_right_iff, List.forall₂_same]
      exact hf
    have hsigns : Signs (W.map (·.data)) signs := by
      refine ⟨by simp [signs], fun s hs => ?_⟩
      obtain ⟨e, he, rfl⟩ := List.mem_map.mp hs
      exact (hf e he).2
    have hun := unmap_fold hfa (([], 0), ([], 0))
    have hout : outputOf exactSolver p W = .result ⟨W.map (·.data), part 1 (W.map (·.data)) signs, part (-1) (W.map (·.data)) signs,
        (part 1 (W.map (·.data)) signs).sum, (part (-1) (W.map (·.data)) signs).sum, difference (W.map (·.data)) signs⟩ := by
      unfold outputOf unmapping
      rw [hres]
      simp only [hbest, Except.bind_ok, hun]
      simp only [List.nil_append, zero_add, parts_difference hsigns]
      rfl
    refine ⟨_, hout, rfl, ⟨signs, hsigns, rfl, rfl, rfl⟩, ⟨rfl, rfl⟩, ⟨signs, hsigns, rfl⟩, ?_⟩
    intro s hs
    obtain ⟨g, hg1, hg2⟩ := exists_assign hW.ordered hs
    obtain ⟨r', hr', hv⟩ := g2 g (by rw [h.mtype]; intro v _; simpa [MType.vtype, VType.Domain] using hg1 v)
    have hle := hmin r' hr'
    obtain ⟨e1', _⟩ := g1 r' hr'
    have hass : ∀ (x : Sample) (g : String → ℤ), (∀ e ∈ W, dget x (lab e) = some (g (lab e))) →
        pairs x.assign W = pairs (fun v => (g v : ℚ)) W := by
      intro x g hx
      apply pairs_congr
      intro e he
      simp [Sample.assign, hx e he]
    rw [e1, e1', h.energy, h.energy, hass r.1 f (fun e he => (hf e he).1), hass r'.1 g (fun e he => hv _ (huses e he))] at hle
    have hsq : ∀ g : String → ℤ, (∀ e ∈ W, g (lab e) = 1 ∨ g (lab e) = -1) →
        2 * pairs (fun v => (g v : ℚ)) W = signedSum (fun v => (g v : ℚ)) W ^ 2 - squares W := by
      intro g hg
      have : (W.map fun e => (e.data * (g (lab e) : ℚ)) ^ 2) = W.map fun e => e.data ^ 2 := by
        apply List.map_congr_left
        intro e he
        rcases hg e he with h | h <;> rw [h] <;> push_cast <;> ring
      unfold pairs squares
      rw [this]
      ring
    have h1 := hsq f fun e he => (hf e he).2
    have h3 := hsq g fun e _ => hg1 _
    have hfin : signedSum (fun v => (f v : ℚ)) W ^ 2 ≤ signedSum (fun v => (g v : ℚ)) W ^ 2 := by linarith
    unfold difference
    rw [signedSum_signs, signedSum_signs, hg2] at hfin
    exact sq_le_sq.mp hfin
  · rintro ⟨h2, e, he, h0⟩
    obtain ⟨res, hres, hne, g1, g2⟩ := solved h2
    obtain ⟨r, hr, hbest, _⟩ := best_ok hne
    obtain ⟨_, _, e3, _⟩ := g1 r hr
    have hnone : dget r.1 (lab e) = none := by
      rw [dget_eq_none_iff, e3, h.uses hW, at_some hW he]
      exact fun hc => hc.1 h0
    unfold outputOf unmapping
    rw [hres]
    simp only [hbest, Except.bind_ok, unmap_missing he hnone]
    rfl
  · intro h2
    have hemp := (h.empty hW).mpr h2
    have := (C56_empty hemp).1 none []
    unfold outputOf exactSolver
    rw [this]

/-- What the application yields for the numbers `W`: an optimal partition if there are at least two numbers and none is zero. -/
def Yields (W : List (El ℚ)) (o : List (Output Report)) : Prop :=
  (TwoNonzero W ∧ (∀ e ∈ W, e.data ≠ 0) → ∃ r, o = [.result r] ∧ Answer W r) ∧
  (TwoNonzero W ∧ (∃ e ∈ W, e.data = 0) → o = [.failedUnmap .keyError]) ∧
  (¬ TwoNonzero W → o = [.failedSolve .valueError])

theorem yields {W : List (El ℚ)} {o : List (Output Report)} (hW : Increasing W)
    (h : ∃ p, Physic W p ∧ o = [outputOf exactSolver p W]) : Yields W o := by
  obtain ⟨p, hp, rfl⟩ := h
  obtain ⟨h1, h2, h3⟩ := window_cases hW hp
  refine ⟨fun h => ?_, fun h => by rw [h2 h], fun h => by rw [h3 h]⟩
  obtain ⟨r, hr, ha⟩ := h1 h
  exact ⟨r, by rw [hr], ha⟩

theorem sliding_increasing {E : List (El ℚ)} (hE : Increasing E) {ws : List (Win ℚ)} {a b : ℚ} (hs : Sliding E a b ws) :
    ∀ w ∈ ws, Increasing (sorted w.elements) := by
  induction ws generalizing a b with
  | nil => intro w hw; cases hw
  | cons u ws ih =>
    obtain ⟨a', b', _, _, hc, hr⟩ := hs
    intro w hw
    rcases List.mem_cons.mp hw with rfl | hw
    · rw [cut_slice hE.ordered hc]
      exact hE.sublist List.filter_sublist
    · exact ih hr w hw

/-- With the exact solver, over windows that slide along a stream: every window yields an optimal partition of its numbers
if there are at least two and none is zero; otherwise it fails. -/
theorem C81_window {E : List (El ℚ)} (hE : Increasing E) (halg : alg = .window ∨ alg = .delta) {ws : List (Bool × Win ℚ)}
    {a b : ℚ} (hs : Sliding E a b (ws.map (·.2))) (ho : InOrder (-1) (ws.map (·.2))) :
    ∃ os st', (processAll alg (fns now render env clks ids exactSolver) (LModel.new .ising id) ws).run St.start = .ok os st' ∧
      List.Forall₂ (fun w o => Yields (sorted w.2.elements) o) ws os := by
  obtain ⟨os, st', h1, h2, h3⟩ := sliding_start (now := now) (render := render) (env := env) (clks := clks) (ids := ids)
    (solver := exactSolver) hE halg hs ho id
  refine ⟨os, st', h1, ?_⟩
  have hinc := sliding_increasing hE hs
  rw [List.forall₂_map_left_iff] at h2
  clear hs ho h1 h3
  induction h2 with
  | nil => exact .nil
  | @cons w o ws os hwo _ ih =>
    exact .cons (yields (hinc w.2 (by simp)) hwo) (ih fun w hw => hinc w (by simp [hw]))

/-- The same for all numbers so far, with the incremental algorithm. -/
theorem C81_incremental {ws : List (Bool × Win ℚ)} {parts : List (List (El ℚ))}
    (hp : List.Forall₂ (fun w part => w.2.elements.Perm part ∧ part ≠ []) ws parts) (hI : Increasing parts.flatten)
    (ho : InOrder (-1) (ws.map (·.2))) :
    ∃ os st', (processAll .incremental (fns now render env clks ids exactSolver) (LModel.new .ising id) ws).run St.start = .ok os st' ∧
      os.length = ws.length ∧ ∀ (i : Nat) o, os[i]? = some o → Yields (parts.take (i + 1)).flatten o := by
  obtain ⟨os, st', new, h1, _, h3, _⟩ := incremental_run (now := now) (render := render) (env := env) (clks := clks) (ids := ids)
    (solver := exactSolver) (st := St.start) (initial := LModel.new .ising id) (k := 0) (prev := []) hp hI ho rfl (tracks_new id)
    (fun _ _ => Nat.zero_le _)
  have hlen : os.length = ws.length := by rw [← h3.length_eq, growing_length, hp.length_eq]
  refine ⟨os, st', h1, hlen, fun i o hio => ?_⟩
  obtain ⟨W, hW⟩ : ∃ W, (growing [] parts)[i]? = some W := by
    have : i < (growing [] parts).length := by
      rw [h3.length_eq]
      exact (List.getElem?_eq_some_iff.mp hio).1
    exact ⟨_, List.getElem?_eq_getElem this⟩
  have hWe := growing_at hW
  rw [List.nil_append] at hWe
  rw [← hWe]
  refine yields ?_ (forall₂_at h3 hW hio)
  rw [hWe]
  have : parts.flatten = (parts.take (i + 1)).flatten ++ (parts.drop (i + 1)).flatten := by
    rw [← List.flatten_append, List.take_append_drop]
  rw [this] at hI
  exact (List.pairwise_append.mp hI).1

/-! ## Examples -/

/-- Numbers 5, 3, 2, 4, 0, 7 at times 1 to 6. -/
def Ex.numbers : List (El ℚ) := [⟨1, 0, 5⟩, ⟨2, 1, 3⟩, ⟨3, 2, 2⟩, ⟨4, 3, 4⟩, ⟨5, 4, 0⟩, ⟨6, 5, 7⟩]

/-- Windows of length 3 with period 1, with elements in some order; then one with a single number. -/
def Ex.nppWins : List (Bool × Win ℚ) :=
  [(false, ⟨3, [⟨2, 1, 3⟩, ⟨1, 0, 5⟩, ⟨3, 2, 2⟩]⟩), (true, ⟨4, [⟨3, 2, 2⟩, ⟨4, 3, 4⟩, ⟨2, 1, 3⟩]⟩),
   (false, ⟨5, [⟨3, 2, 2⟩, ⟨4, 3, 4⟩, ⟨5, 4, 0⟩]⟩), (false, ⟨9, [⟨6, 5, 7⟩]⟩)]

example : Increasing Ex.numbers := by unfold Increasing; decide +kernel

example : Sliding Ex.numbers 0 0 (Ex.nppWins.map (·.2)) ∧ InOrder (-1) (Ex.nppWins.map (·.2)) :=
  ⟨⟨1, 4, by norm_num, by norm_num, ⟨by decide +kernel, by decide⟩, 2, 5, by norm_num, by norm_num, ⟨by decide +kernel, by decide⟩,
    3, 6, by norm_num, by norm_num, ⟨by decide +kernel, by decide⟩, 6, 9, by norm_num, by norm_num, ⟨by decide +kernel, by decide⟩, trivial⟩,
   by norm_num [Ex.nppWins, InOrder]⟩

/-- The functions of the application with the exact solver, for the examples. -/
def Ex.nppFns : Fns LModel (List (Sample × ℚ)) ℚ Report :=
  NppStream.fns 0 (fun _ => "") ⟨0, fun _ => ""⟩ (fun _ _ => 0) (fun _ => "1") exactSolver

/-- What these windows yield. -/
def Ex.nppRun (alg : Algorithm LModel ℚ) (ws : List (Bool × Win ℚ)) : Option (List (List (Output Report))) :=
  match (processAll alg Ex.nppFns (LModel.new .ising "0") ws).run St.start with
  | .ok os _ => some os
  | .error _ _ => none

example : Ex.nppRun .window Ex.nppWins = some
    [[.result ⟨[5, 3, 2], [5], [3, 2], 5, 5, 0⟩], [.result ⟨[3, 2, 4], [3, 2], [4], 5, 4, 1⟩], [.failedUnmap .keyError],
     [.failedSolve .valueError]] := by
  decide +kernel

/-- Numbers with the same timestamp do not interact: the two numbers of this window yield nothing. -/
theorem C80_equal_times_refuted : Ex.nppRun .window [(false, ⟨1, [⟨1, 0, 3⟩, ⟨1, 1, 5⟩]⟩)] = some [[.failedSolve .valueError]] := by
  decide +kernel

/-- With the partial algorithm, numbers that are dropped from the middle of the window stay in the model: the difference
reported for 91, 91 and 89 is 93, not the optimal 89. -/
theorem C81_partial_refuted :
    Ex.nppRun (.«partial» fun x => .ok (decide (90 < x.data)))
      [(false, ⟨3, [⟨1, 0, 91⟩, ⟨2, 1, 91⟩, ⟨3, 2, 90⟩]⟩), (false, ⟨6, [⟨4, 3, 89⟩]⟩)] = some
    [[.result ⟨[91, 91, 90], [91], [91, 90], 91, 181, 90⟩], [.result ⟨[91, 91, 89], [91, 91], [89], 182, 89, 93⟩]] := by
  decide +kernel

end Sawatabi.Props
