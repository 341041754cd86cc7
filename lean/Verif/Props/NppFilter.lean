import Verif.Lemmas.NppFilter
import Verif.Props.NppStream

/-!
# C108: number partitioning with the partial algorithm
-/

namespace Sawatabi.Props

open Stream NppStream

variable {now : ℚ} {render : El ℚ → String} {env : Env} {clks : Nat → Nat → ℚ} {ids : Nat → String}
  {solver : Physical → Except Err (List (Sample × ℚ))} {id : String} {keep : El ℚ → Bool}
  {S : List (El ℚ)} {G : List (El ℚ × El ℚ)} {h : Held} {p : Physical}

/-- The invariant after some batches. -/
theorem held_inv (parts : List (List (El ℚ))) (hI : Increasing parts.flatten) : (heldAfter keep parts).Inv parts.flatten := by
  unfold heldAfter
  induction parts using List.reverseRecOn with
  | nil => exact Held.Inv.start
  | append_singleton parts part ih =>
    rw [List.flatten_append, List.flatten_singleton] at hI ⊢
    rw [List.foldl_append]
    exact (ih (List.pairwise_append.mp hI).1).next hI

theorem take_increasing {parts : List (List (El ℚ))} (hI : Increasing parts.flatten) (n : Nat) : Increasing (parts.take n).flatten := by
  have : parts.flatten = (parts.take n).flatten ++ (parts.drop n).flatten := by
    rw [← List.flatten_append, List.take_append_drop]
  rw [this] at hI
  exact (List.pairwise_append.mp hI).1

/-! ## The model -/

/-- With the partial algorithm, over batches of a stream, for any filter that does not raise: the application handles every
batch, and the model that the solver is given consists of the pairs that are held. -/
theorem C108_model {ws : List (Bool × Win ℚ)} {parts : List (List (El ℚ))}
    (hp : List.Forall₂ (fun w part => w.2.elements.Perm part ∧ part ≠ []) ws parts) (hI : Increasing parts.flatten)
    (ho : InOrder (-1) (ws.map (·.2))) :
    ∃ os st', (processAll (.«partial» fun x => .ok (keep x)) (fns now render env clks ids solver) (LModel.new .ising id) ws).run
        St.start = .ok os st' ∧
      os.length = ws.length ∧ (solveArgs st'.calls).length = ws.length ∧
      ∀ (i : Nat) c, (solveArgs st'.calls)[i]? = some c → c.2 = (heldAfter keep (parts.take (i + 1))).els ∧
        ∀ ρ σ, c.1.energy ρ σ = liveSum σ (heldAfter keep (parts.take (i + 1))).live := by
  obtain ⟨os, st', new, h1, h2, h3, h4, _, h5⟩ := filter_run (now := now) (render := render) (env := env) (clks := clks) (ids := ids)
    (solver := solver) (st := St.start) (initial := LModel.new .ising id) (k := 0) (S := []) (h := ⟨[], []⟩) (keep := keep) hp
    (by simpa using hI) ho rfl Held.Inv.start ((tracks_new id).2.congr (fun _ _ hp => hp) (fun σ => by simp [pairs, signedSum, liveSum]))
    (by simp) (fun _ _ => Nat.zero_le _)
  have h2 : solveArgs st'.calls = new := by rw [h2]; rfl
  rw [← h2] at h4 h5
  exact ⟨os, st', h1, h3, h4, h5⟩

/-! ### When the model is that of the window -/

/-- The pairs with a number that is no longer in the window. -/
def ghosts (h : Held) : List (El ℚ × El ℚ) := h.live.filter fun p => decide (¬ (p.1 ∈ h.els ∧ p.2 ∈ h.els))

theorem liveSum_perm {σ : Assign} {G G' : List (El ℚ × El ℚ)} (h : G.Perm G') : liveSum σ G = liveSum σ G' := by
  unfold liveSum
  exact (h.map _).sum_eq

theorem liveSum_pairs (σ : Assign) {l : List (El ℚ)} (hl : Increasing l) {G : List (El ℚ × El ℚ)} (hnd : G.Nodup)
    (hG : ∀ p, p ∈ G ↔ p.1 ∈ l ∧ p.2 ∈ l ∧ p.1.ts < p.2.ts) : liveSum σ G = pairs σ l := by
  have hnew := liveSum_new σ l l
  have hp := pairs_append σ [] l (by simpa using hl)
  rw [List.nil_append] at hp
  rw [hp, ← hnew]
  have h0 : pairs σ [] = 0 := by simp [pairs, signedSum]
  rw [h0, zero_add]
  apply liveSum_perm
  have hnd' : (l.flatMap fun i => (l.filter fun j => decide (j.ts < i.ts)).map fun j => (j, i)).Nodup := by
    have := (Held.Inv.start.next (keep := fun _ => true) (part := l) (by simpa using hl)).nodup
    simpa [Held.next] using this
  rw [List.perm_ext_iff_of_nodup hnd hnd']
  intro q
  rw [hG, List.mem_flatMap]
  constructor
  · rintro ⟨h1, h2, h3⟩
    exact ⟨q.2, h2, List.mem_map.mpr ⟨q.1, by simp [h1, h3], rfl⟩⟩
  · rintro ⟨i, hi, hq⟩
    obtain ⟨j, hj, rfl⟩ := List.mem_map.mp hq
    simp only [List.mem_filter, decide_eq_true_eq] at hj
    exact ⟨hj.1, hi, hj.2⟩

theorem live_split (hS : Increasing S) (hi : h.Inv S) (σ : Assign) : liveSum σ h.live = pairs σ h.els + liveSum σ (ghosts h) := by
  have hperm : (h.live.filter (fun p => decide (p.1 ∈ h.els ∧ p.2 ∈ h.els)) ++ ghosts h).Perm h.live := by
    have := List.filter_append_perm (fun p => decide (p.1 ∈ h.els ∧ p.2 ∈ h.els)) h.live
    unfold ghosts
    simpa only [decide_not] using this
  rw [← liveSum_perm hperm, liveSum_append, liveSum_pairs σ (hS.sublist hi.sub) (hi.nodup.filter _)]
  intro q
  rw [List.mem_filter, decide_eq_true_eq]
  constructor
  · rintro ⟨h1, h2, h3⟩
    exact ⟨h2, h3, (hi.seen q h1).2.2⟩
  · rintro ⟨h1, h2, h3⟩
    exact ⟨hi.all _ h1 _ h2 h3, h1, h2⟩

/-- Some spins with one or two of them turned. -/
def turning (ls : List String) : Assign := fun v => if v ∈ ls then -1 else 1

theorem turning_spin (ls : List String) : (turning ls).IsSpin := by
  intro v
  unfold turning
  by_cases h : v ∈ ls <;> simp [h]

/-- The coefficient of a pair is a difference of energies. -/
theorem live_coefficient (hS : Increasing S) (hG : ∀ q ∈ G, q.1 ∈ S ∧ q.2 ∈ S ∧ q.1.ts < q.2.ts) (hnd : G.Nodup) {q : El ℚ × El ℚ}
    (hq : q ∈ G) :
    liveSum (turning []) G - liveSum (turning [lab q.1]) G - liveSum (turning [lab q.2]) G + liveSum (turning [lab q.1, lab q.2]) G =
      4 * (q.1.data * q.2.data) := by
  have hlin : ∀ (G : List (El ℚ × El ℚ)) (a b c d : Assign), liveSum a G - liveSum b G - liveSum c G + liveSum d G =
      (G.map fun p => p.1.data * p.2.data * (a (lab p.1) * a (lab p.2) - b (lab p.1) * b (lab p.2) - c (lab p.1) * c (lab p.2)
        + d (lab p.1) * d (lab p.2))).sum := by
    intro G a b c d
    unfold liveSum
    induction G with
    | nil => simp
    | cons p G ih => simp only [List.map_cons, List.sum_cons, ← ih]; ring
  obtain ⟨q1, q2, q3⟩ := hG q hq
  have hlab : ∀ {a b : El ℚ}, a ∈ S → b ∈ S → (lab a = lab b ↔ a = b) := by
    intro a b ha hb
    exact ⟨fun hl => increasing_eq hS.ordered ha hb (lab_inj hl), fun hl => by rw [hl]⟩
  have hne : q.1 ≠ q.2 := fun hc => by rw [hc] at q3; exact lt_irrefl _ q3
  rw [hlin, NppStream.sum_single hnd hq]
  · have h1 : lab q.1 ≠ lab q.2 := fun hc => hne ((hlab q1 q2).mp hc)
    simp only [turning, List.mem_cons, List.not_mem_nil, or_false, if_true, if_false, h1, h1.symm, true_or, or_true]
    ring
  · intro r hr hrq
    obtain ⟨r1, r2, r3⟩ := hG r hr
    have a := hlab r1 q1
    have b := hlab r1 q2
    have c := hlab r2 q1
    have d := hlab r2 q2
    simp only [turning, List.mem_cons, List.not_mem_nil, or_false, if_false, a, b, c, d]
    by_cases e1 : r.1 = q.1
    · have n2 : r.1 ≠ q.2 := fun hc => hne (e1.symm.trans hc)
      have n3 : r.2 ≠ q.1 := fun hc => by rw [e1, hc] at r3; exact lt_irrefl _ r3
      have n4 : r.2 ≠ q.2 := fun hc => hrq (Prod.ext e1 hc)
      simp only [e1, hne, n3, n4, if_true, if_false, true_or, or_self]
      ring
    · by_cases e2 : r.1 = q.2
      · have n4 : r.2 ≠ q.2 := fun hc => by rw [e2, hc] at r3; exact lt_irrefl _ r3
        have n3 : r.2 ≠ q.1 := fun hc => by rw [e2, hc] at r3; exact absurd r3 (not_lt.mpr q3.le)
        simp only [e2, hne.symm, n3, n4, if_true, if_false, or_true, or_self]
        ring
      · by_cases e3 : r.2 = q.1
        · have n4 : r.2 ≠ q.2 := fun hc => hne (e3.symm.trans hc)
          simp only [e1, e2, e3, hne, if_true, if_false, true_or, or_self]
          ring
        · simp only [e1, e2, e3, if_false, false_or, or_self]
          ring

/-- A sum over pairs vanishes on all spins only if all coefficients do. -/
theorem live_zero_iff (hS : Increasing S) (hG : ∀ q ∈ G, q.1 ∈ S ∧ q.2 ∈ S ∧ q.1.ts < q.2.ts) (hnd : G.Nodup) :
    (∀ σ : Assign, σ.IsSpin → liveSum σ G = 0) ↔ ∀ q ∈ G, q.1.data * q.2.data = 0 := by
  constructor
  · intro h q hq
    have := live_coefficient hS hG hnd hq
    rw [h _ (turning_spin _), h _ (turning_spin _), h _ (turning_spin _), h _ (turning_spin _)] at this
    linarith
  · intro h σ _
    apply List.sum_eq_zero
    intro x hx
    obtain ⟨q, hq, rfl⟩ := List.mem_map.mp hx
    rw [h q hq, zero_mul]

theorem represents_iff (hS : Increasing S) (hi : h.Inv S) {m : LModel} (hm : ∀ ρ σ, m.energy ρ σ = liveSum σ h.live) :
    Represents m h.els ↔ ∀ q ∈ h.live, (q.1 ∉ h.els ∨ q.2 ∉ h.els) → q.1.data * q.2.data = 0 := by
  have hghost : (∀ q ∈ h.live, (q.1 ∉ h.els ∨ q.2 ∉ h.els) → q.1.data * q.2.data = 0) ↔ ∀ q ∈ ghosts h, q.1.data * q.2.data = 0 := by
    unfold ghosts
    simp only [List.mem_filter, decide_eq_true_eq, and_imp, not_and_or]
  rw [hghost, ← live_zero_iff (G := ghosts h) hS (fun q hq => hi.seen q (List.mem_of_mem_filter hq)) (hi.nodup.filter _)]
  unfold Represents
  constructor
  · intro h1 σ hσ
    have := h1 (fun _ => 0) σ hσ
    rw [hm, live_split hS hi, mul_add, pairs_spin hσ] at this
    linarith
  · intro h1 ρ σ hσ
    rw [hm, live_split hS hi, mul_add, pairs_spin hσ, h1 σ hσ]
    ring

/-- The model is that of the window exactly if each interacting pair with a number that has left the window has a zero. -/
theorem C108_model_exact {ws : List (Bool × Win ℚ)} {parts : List (List (El ℚ))}
    (hp : List.Forall₂ (fun w part => w.2.elements.Perm part ∧ part ≠ []) ws parts) (hI : Increasing parts.flatten)
    (ho : InOrder (-1) (ws.map (·.2))) :
    ∃ os st', (processAll (.«partial» fun x => .ok (keep x)) (fns now render env clks ids solver) (LModel.new .ising id) ws).run
        St.start = .ok os st' ∧ (solveArgs st'.calls).length = ws.length ∧
      ∀ (i : Nat) c, (solveArgs st'.calls)[i]? = some c →
        (Represents c.1 c.2 ↔ ∀ q ∈ (heldAfter keep (parts.take (i + 1))).live, (q.1 ∉ c.2 ∨ q.2 ∉ c.2) → q.1.data * q.2.data = 0) := by
  obtain ⟨os, st', h1, _, h3, h4⟩ := C108_model (now := now) (render := render) (env := env) (clks := clks) (ids := ids)
    (solver := solver) (id := id) (keep := keep) hp hI ho
  refine ⟨os, st', h1, h3, fun i c hc => ?_⟩
  obtain ⟨h5, h6⟩ := h4 i c hc
  rw [h5]
  exact represents_iff (take_increasing hI _) (held_inv _ (take_increasing hI _)) h6

/-- Kept numbers stay. -/
theorem kept_stays (parts : List (List (El ℚ))) {x : El ℚ} (hx : x ∈ parts.flatten) (hk : keep x = true) :
    x ∈ (heldAfter keep parts).els := by
  unfold heldAfter
  induction parts using List.reverseRecOn with
  | nil => cases hx
  | append_singleton parts part ih =>
    rw [List.flatten_append, List.flatten_singleton, List.mem_append] at hx
    rw [List.foldl_append]
    simp only [List.foldl_cons, List.foldl_nil]
    show x ∈ _ ++ _
    rw [List.mem_append, List.mem_filter]
    exact hx.imp (fun hx => ⟨ih hx, hk⟩) fun hx => hx

/-- Numbers that are not kept leave after their batch. -/
theorem leaves (parts : List (List (El ℚ))) (part : List (El ℚ)) (hI : Increasing (parts ++ [part]).flatten) {x : El ℚ}
    (hx : x ∈ parts.flatten) (hk : keep x = false) : x ∉ (heldAfter keep (parts ++ [part])).els := by
  unfold heldAfter
  rw [List.foldl_append]
  show x ∉ _ ++ _
  rw [List.mem_append, List.mem_filter]
  rintro (⟨_, h⟩ | h)
  · rw [hk] at h; cases h
  · rw [List.flatten_append, List.flatten_singleton] at hI
    exact lt_irrefl _ ((List.pairwise_append.mp hI).2.2 x hx x h).1

/-- The numbers of a window are the kept ones of all earlier batches, and those of its batch. -/
theorem C108_window (parts : List (List (El ℚ))) (last : List (El ℚ)) :
    (heldAfter keep (parts ++ [last])).els = parts.flatten.filter keep ++ last := by
  have key : ∀ parts : List (List (El ℚ)), (heldAfter keep parts).els.filter keep = parts.flatten.filter keep := by
    intro parts
    induction parts using List.reverseRecOn with
    | nil => rfl
    | append_singleton parts part ih =>
      have hfold : heldAfter keep (parts ++ [part]) = (heldAfter keep parts).next keep part := by
        unfold heldAfter
        rw [List.foldl_append]
        rfl
      rw [hfold, List.flatten_append, List.filter_append, List.flatten_singleton, ← ih]
      show List.filter keep (_ ++ _) = _
      rw [List.filter_append, List.filter_filter]
      simp only [Bool.and_self]
  unfold heldAfter
  rw [List.foldl_append]
  show _ ++ last = _
  rw [← key]
  rfl

/-- A number that comes after a kept one interacts with it forever. -/
theorem stays_live (parts : List (List (El ℚ))) (hI : Increasing parts.flatten) {y x : El ℚ} (hy : y ∈ parts.flatten)
    (hx : x ∈ parts.flatten) (hk : keep y = true) (hlt : y.ts < x.ts) : (y, x) ∈ (heldAfter keep parts).live := by
  induction parts using List.reverseRecOn with
  | nil => cases hx
  | append_singleton parts part ih =>
    have hy0 := hy
    have hI0 := hI
    rw [List.flatten_append, List.flatten_singleton, List.mem_append] at hx hy
    rw [List.flatten_append, List.flatten_singleton] at hI
    have hI' := List.pairwise_append.mp hI
    have hfold : heldAfter keep (parts ++ [part]) = (heldAfter keep parts).next keep part := by
      unfold heldAfter
      rw [List.foldl_append]
      rfl
    have hinv := held_inv (keep := keep) parts hI'.1
    have hels : Increasing (heldAfter keep parts).els := hI'.1.sublist hinv.sub
    rw [hfold, mem_next]
    rcases hx with hx | hx
    · have hy : y ∈ parts.flatten := by
        rcases hy with hy | hy
        · exact hy
        · exact absurd hlt (not_lt.mpr (hI'.2.2 x hx y hy).1.le)
      have hym := kept_stays (keep := keep) parts hy hk
      refine .inl ⟨ih hI'.1 hy hx, ?_, ?_⟩
      · rw [mem_takeWhile_before hels hym]
        exact fun hc => lt_irrefl _ (hc y hym hk)
      · intro hc
        have hxm := (List.takeWhile_sublist _).subset hc
        exact absurd ((mem_takeWhile_before hels hxm).mp hc y hym hk) (not_lt.mpr hlt.le)
    · refine .inr ⟨hx, ?_, hlt⟩
      rw [← hfold]
      exact kept_stays _ hy0 hk

/-- The numbers of the interacting pairs are in the window, or have left it after a kept number. -/
theorem ghost_after (parts : List (List (El ℚ))) (part : List (El ℚ)) (hI : Increasing (parts ++ [part]).flatten) :
    ∀ q ∈ (heldAfter keep (parts ++ [part])).live, ∀ x, (x = q.1 ∨ x = q.2) →
      x ∈ (heldAfter keep (parts ++ [part])).els ∨
      (x ∈ parts.flatten ∧ keep x = false ∧ ∃ y ∈ parts.flatten, keep y = true ∧ y.ts < x.ts) := by
  induction parts using List.reverseRecOn generalizing part with
  | nil =>
    intro q hq x hx
    have hq : q ∈ (Held.next keep ⟨[], []⟩ part).live := hq
    rw [mem_next] at hq
    left
    show x ∈ _ ++ _
    rcases hq with ⟨h1, _⟩ | ⟨h1, h2, _⟩
    · cases h1
    · rcases hx with rfl | rfl
      · exact h2
      · simp [h1]
  | append_singleton parts last ih =>
    intro q hq x hx
    have hI0 := hI
    rw [List.flatten_append, List.flatten_singleton] at hI
    have hI' := List.pairwise_append.mp hI
    have hinv := held_inv (keep := keep) (parts ++ [last]) hI'.1
    have hels : Increasing (heldAfter keep (parts ++ [last])).els := hI'.1.sublist hinv.sub
    have hfold : heldAfter keep (parts ++ [last] ++ [part]) = (heldAfter keep (parts ++ [last])).next keep part := by
      unfold heldAfter
      rw [List.foldl_append (l' := [part])]
      rfl
    rw [hfold, mem_next] at hq
    rw [hfold]
    rcases hq with ⟨h1, h2, h3⟩ | ⟨h1, h2, _⟩
    · have hx' : x ∉ (heldAfter keep (parts ++ [last])).els.takeWhile (fun e => !keep e) := by
        rcases hx with rfl | rfl
        · exact h2
        · exact h3
      rcases ih last hI'.1 q h1 x hx with hm | ⟨g1, g2, y, g3, g4⟩
      · by_cases hk : keep x = true
        · left
          show x ∈ _ ++ _
          simp [hm, hk]
        · right
          rw [mem_takeWhile_before hels hm] at hx'
          push Not at hx'
          obtain ⟨y, hy, hky, hle⟩ := hx'
          refine ⟨hinv.sub.subset hm, by simpa using hk, y, hinv.sub.subset hy, hky, ?_⟩
          rcases lt_or_eq_of_le hle with hlt | heq
          · exact hlt
          · exfalso
            by_cases hxy : x = y
            · subst hxy; exact hk hky
            · rcases increasing_lt hels hm hy hxy with h | h <;> rw [heq] at h <;> exact lt_irrefl _ h
      · right
        rw [List.flatten_append]
        exact ⟨by simp [g1], g2, y, by simp [g3], g4⟩
    · left
      rcases hx with rfl | rfl
      · exact h2
      · show q.2 ∈ _ ++ _
        simp [h1]

/-- If the filter keeps only numbers that are not zero (as in the sample, where they are above 90): the model of a window is
that of its numbers exactly if in all earlier batches, nothing but zeros and kept numbers has come after a kept number. -/
theorem C108_when {ws : List (Bool × Win ℚ)} {parts : List (List (El ℚ))}
    (hp : List.Forall₂ (fun w part => w.2.elements.Perm part ∧ part ≠ []) ws parts) (hI : Increasing parts.flatten)
    (ho : InOrder (-1) (ws.map (·.2))) (hkeep : ∀ x, keep x = true → x.data ≠ 0) :
    ∃ os st', (processAll (.«partial» fun x => .ok (keep x)) (fns now render env clks ids solver) (LModel.new .ising id) ws).run
        St.start = .ok os st' ∧ (solveArgs st'.calls).length = ws.length ∧
      ∀ (i : Nat) c, (solveArgs st'.calls)[i]? = some c →
        (Represents c.1 c.2 ↔ ∀ y ∈ (parts.take i).flatten, ∀ x ∈ (parts.take i).flatten, keep y = true → y.ts < x.ts →
          keep x = true ∨ x.data = 0) := by
  obtain ⟨os, st', h1, h2, h3⟩ := C108_model (now := now) (render := render) (env := env) (clks := clks) (ids := ids)
    (solver := solver) (id := id) (keep := keep) hp hI ho
  obtain ⟨h3, h4⟩ := h3
  refine ⟨os, st', h1, h3, fun i c hc => ?_⟩
  obtain ⟨h5, h6⟩ := h4 i c hc
  have hlen : i < parts.length := by
    rw [← hp.length_eq, ← h3]
    exact (List.getElem?_eq_some_iff.mp hc).1
  have htake : parts.take (i + 1) = parts.take i ++ [parts[i]] := by rw [List.take_succ_eq_append_getElem hlen]
  have hI1 := take_increasing hI (i + 1)
  rw [h5, represents_iff hI1 (held_inv _ hI1) h6, htake]
  rw [htake] at hI1
  have hsub : ∀ x ∈ (parts.take i).flatten, x ∈ (parts.take i ++ [parts[i]]).flatten := by
    intro x hx
    rw [List.flatten_append]
    exact List.mem_append.mpr (.inl hx)
  constructor
  · intro hz y hy x hx hk hlt
    by_contra hc
    push Not at hc
    have hk' : keep x = false := by simpa using hc.1
    have := hz (y, x) (stays_live _ hI1 (hsub y hy) (hsub x hx) hk hlt) (.inr (leaves _ _ hI1 hx hk'))
    rcases mul_eq_zero.mp this with h0 | h0
    · exact hkeep y hk h0
    · exact hc.2 h0
  · intro hz q hq hout
    have key : ∀ x, (x = q.1 ∨ x = q.2) → x ∉ (heldAfter keep (parts.take i ++ [parts[i]])).els → x.data = 0 := by
      intro x hx hm
      rcases ghost_after _ _ hI1 q hq x hx with h | ⟨g1, g2, y, g3, g4, g5⟩
      · exact absurd h hm
      · rcases hz y g3 x g1 g4 g5 with h | h
        · rw [g2] at h; cases h
        · exact h
    rcases hout with hm | hm
    · rw [key _ (.inl rfl) hm, zero_mul]
    · rw [key _ (.inr rfl) hm, mul_zero]

/-! ## The answers -/

theorem liveSum_indicator_small (hG : ∀ q ∈ G, q.1 ∈ S ∧ q.2 ∈ S ∧ q.1.ts < q.2.ts) (hS : Ordered S) (ls : List String)
    (hl : ls = [] ∨ ∃ a, ls = [a]) : liveSum (indicator ls) G = 0 := by
  apply List.sum_eq_zero
  intro x hx
  obtain ⟨q, hq, rfl⟩ := List.mem_map.mp hx
  obtain ⟨h1, h2, h3⟩ := hG q hq
  rcases hl with rfl | ⟨a, rfl⟩
  · simp [indicator]
  · by_cases e1 : lab q.1 = a
    · by_cases e2 : lab q.2 = a
      · have := increasing_eq hS h1 h2 (lab_inj (e1.trans e2.symm))
        rw [this] at h3
        exact absurd h3 (lt_irrefl _)
      · simp [indicator, e2]
    · simp [indicator, e1]

theorem liveSum_indicator_pair (hG : ∀ q ∈ G, q.1 ∈ S ∧ q.2 ∈ S ∧ q.1.ts < q.2.ts) (hS : Ordered S) (hnd : G.Nodup) {a b : String}
    (hab : a ≠ b) : liveSum (indicator [a, b]) G ≠ 0 ↔
      ∃ q ∈ G, ((lab q.1 = a ∧ lab q.2 = b) ∨ (lab q.1 = b ∧ lab q.2 = a)) ∧ q.1.data * q.2.data ≠ 0 := by
  have hval : ∀ q : El ℚ × El ℚ, ((lab q.1 = a ∧ lab q.2 = b) ∨ (lab q.1 = b ∧ lab q.2 = a)) →
      q.1.data * q.2.data * (indicator [a, b] (lab q.1) * indicator [a, b] (lab q.2)) = q.1.data * q.2.data := by
    rintro q (⟨e1, e2⟩ | ⟨e1, e2⟩) <;> simp [indicator, e1, e2]
  have hzero : ∀ q ∈ G, ¬ ((lab q.1 = a ∧ lab q.2 = b) ∨ (lab q.1 = b ∧ lab q.2 = a)) →
      q.1.data * q.2.data * (indicator [a, b] (lab q.1) * indicator [a, b] (lab q.2)) = 0 := by
    intro q hq hn
    obtain ⟨h1, h2, h3⟩ := hG q hq
    have hne : lab q.1 ≠ lab q.2 := by
      intro hc
      have := increasing_eq hS h1 h2 (lab_inj hc)
      rw [this] at h3
      exact lt_irrefl _ h3
    push Not at hn
    have : indicator [a, b] (lab q.1) * indicator [a, b] (lab q.2) = 0 := by
      by_cases e1 : lab q.1 = a
      · have := hn.1 e1
        have h2' : lab q.2 ≠ a := fun hc => hne (e1.trans hc.symm)
        simp [indicator, this, h2']
      · by_cases e2 : lab q.1 = b
        · have := hn.2 e2
          have h2' : lab q.2 ≠ b := fun hc => hne (e2.trans hc.symm)
          simp [indicator, this, h2']
        · simp [indicator, e1, e2]
    rw [this, mul_zero]
  by_cases hex : ∃ q ∈ G, (lab q.1 = a ∧ lab q.2 = b) ∨ (lab q.1 = b ∧ lab q.2 = a)
  · obtain ⟨q, hq, hl⟩ := hex
    have huniq : ∀ r ∈ G, r ≠ q → ¬ ((lab r.1 = a ∧ lab r.2 = b) ∨ (lab r.1 = b ∧ lab r.2 = a)) := by
      intro r hr hrq hl'
      obtain ⟨r1, r2, r3⟩ := hG r hr
      obtain ⟨q1, q2, q3⟩ := hG q hq
      have same : ∀ {x y : El ℚ}, x ∈ S → y ∈ S → lab x = lab y → x = y := fun hx hy hxy => increasing_eq hS hx hy (lab_inj hxy)
      rcases hl with ⟨e1, e2⟩ | ⟨e1, e2⟩ <;> rcases hl' with ⟨f1, f2⟩ | ⟨f1, f2⟩
      · exact hrq (Prod.ext (same r1 q1 (f1.trans e1.symm)) (same r2 q2 (f2.trans e2.symm)))
      · rw [same r1 q2 (f1.trans e2.symm), same r2 q1 (f2.trans e1.symm)] at r3
        exact absurd r3 (not_lt.mpr q3.le)
      · rw [same r1 q2 (f1.trans e2.symm), same r2 q1 (f2.trans e1.symm)] at r3
        exact absurd r3 (not_lt.mpr q3.le)
      · exact hrq (Prod.ext (same r1 q1 (f1.trans e1.symm)) (same r2 q2 (f2.trans e2.symm)))
    unfold liveSum
    rw [NppStream.sum_single hnd hq (fun r hr hrq => hzero r hr (huniq r hr hrq)), hval q hl]
    constructor
    · exact fun h0 => ⟨q, hq, hl, h0⟩
    · rintro ⟨r, hr, hl', h0⟩
      by_cases hrq : r = q
      · rw [← hrq]; exact h0
      · exact absurd hl' (huniq r hr hrq)
  · refine iff_of_false ?_ fun ⟨q, hq, hl, _⟩ => hex ⟨q, hq, hl⟩
    rw [not_not]
    apply List.sum_eq_zero
    intro x hx
    obtain ⟨q, hq, rfl⟩ := List.mem_map.mp hx
    exact hzero q hq fun hl => hex ⟨q, hq, hl⟩

section
variable (hS : Ordered S) (hG : ∀ q ∈ G, q.1 ∈ S ∧ q.2 ∈ S ∧ q.1.ts < q.2.ts) (hnd : G.Nodup)
  (hph : PhysicOf (fun σ => liveSum σ G) p)
include hS hG hnd hph

theorem live_linear : p.linear = [] := by
  have hc := (coefficients hph.keyed.linear hph.keyed.quad (fun t ht => hph.keyed.ordered _ (List.mem_map.mpr ⟨t, ht, rfl⟩))).1
  cases hl : p.linear with
  | nil => rfl
  | cons t ts =>
    exfalso
    have hm : t ∈ p.linear := by rw [hl]; simp
    have h1 := hc t.1
    rw [hph.energy, hph.energy, liveSum_indicator_small hG hS [] (.inl rfl), liveSum_indicator_small hG hS [t.1] (.inr ⟨_, rfl⟩),
      dget_of_mem hph.keyed.linear (v := t.2) hm] at h1
    exact hph.nonzero.1 t hm (by simpa using h1)

theorem live_quad {a b : String} (hab : a < b) : (a, b) ∈ dkeys p.quad ↔
    ∃ q ∈ G, ((lab q.1 = a ∧ lab q.2 = b) ∨ (lab q.1 = b ∧ lab q.2 = a)) ∧ q.1.data * q.2.data ≠ 0 := by
  have hc := (coefficients hph.keyed.linear hph.keyed.quad (fun t ht => hph.keyed.ordered _ (List.mem_map.mpr ⟨t, ht, rfl⟩))).2 a b hab
  rw [hph.energy, hph.energy, hph.energy, hph.energy, liveSum_indicator_small hG hS [] (.inl rfl),
    liveSum_indicator_small hG hS [a] (.inr ⟨_, rfl⟩), liveSum_indicator_small hG hS [b] (.inr ⟨_, rfl⟩)] at hc
  rw [← liveSum_indicator_pair hG hS hnd hab.ne]
  constructor
  · intro hk h0
    obtain ⟨q, hq⟩ := (dget_isSome_iff p.quad (a, b)).mpr hk
    have hq0 := hph.nonzero.2 _ (dget_mem hq)
    rw [hq, h0] at hc
    exact hq0 (by simpa using hc)
  · intro h0
    by_contra hk
    rw [(dget_eq_none_iff p.quad (a, b)).mpr hk] at hc
    simp only [Option.getD_none] at hc
    exact h0 (by linarith)

theorem live_uses {e : El ℚ} (he : e ∈ S) : p.Uses (lab e) ↔ Active G e := by
  have same : ∀ {x y : El ℚ}, x ∈ S → y ∈ S → lab x = lab y → x = y := fun hx hy hxy => increasing_eq hS hx hy (lab_inj hxy)
  unfold Physical.Uses
  rw [live_linear hS hG hnd hph]
  constructor
  · rintro (hx | ⟨⟨a, b⟩, hk, hx⟩)
    · simp [dkeys] at hx
    · obtain ⟨q, hq, hl, h0⟩ := (live_quad hS hG hnd hph (hph.keyed.ordered _ hk)).mp hk
      obtain ⟨q1, q2, _⟩ := hG q hq
      refine ⟨q, hq, h0, ?_⟩
      simp only at hx
      rcases hl with ⟨e1, e2⟩ | ⟨e1, e2⟩ <;> rcases hx with hx | hx
      · exact .inl (same q1 he (e1.trans hx))
      · exact .inr (same q2 he (e2.trans hx))
      · exact .inr (same q2 he (e2.trans hx))
      · exact .inl (same q1 he (e1.trans hx))
  · rintro ⟨q, hq, h0, hx⟩
    obtain ⟨q1, q2, q3⟩ := hG q hq
    have hne : lab q.1 ≠ lab q.2 := by
      intro hc
      have := same q1 q2 hc
      rw [this] at q3
      exact lt_irrefl _ q3
    refine .inr ?_
    rcases lt_or_gt_of_ne hne with hlt | hlt
    · refine ⟨(lab q.1, lab q.2), (live_quad hS hG hnd hph hlt).mpr ⟨q, hq, .inl ⟨rfl, rfl⟩, h0⟩, ?_⟩
      rcases hx with rfl | rfl
      · exact .inl rfl
      · exact .inr rfl
    · refine ⟨(lab q.2, lab q.1), (live_quad hS hG hnd hph hlt).mpr ⟨q, hq, .inr ⟨rfl, rfl⟩, h0⟩, ?_⟩
      rcases hx with rfl | rfl
      · exact .inr rfl
      · exact .inl rfl

theorem live_empty : Props.Empty p ↔ ∀ q ∈ G, q.1.data * q.2.data = 0 := by
  constructor
  · rintro ⟨_, hq0⟩ q hq
    by_contra h0
    obtain ⟨q1, _⟩ := hG q hq
    have hu := (live_uses hS hG hnd hph q1).mpr ⟨q, hq, h0, .inl rfl⟩
    unfold Physical.Uses at hu
    rw [live_linear hS hG hnd hph, hq0] at hu
    simp [dkeys] at hu
  · intro hz
    refine ⟨live_linear hS hG hnd hph, ?_⟩
    cases hq : p.quad with
    | nil => rfl
    | cons t ts =>
      exfalso
      have hk : t.1 ∈ dkeys p.quad := by rw [hq]; simp [dkeys]
      obtain ⟨q, hqG, _, h0⟩ := (live_quad hS hG hnd hph (hph.keyed.ordered _ hk)).mp hk
      exact h0 (hz q hqG)
end

/-- What is reported for the numbers `W` with the interacting pairs `G`: the parts that optimal spins for the pairs
determine. -/
structure LiveAnswer (W : List (El ℚ)) (G : List (El ℚ × El ℚ)) (r : Report) : Prop where
  input : r.input = W.map (·.data)
  split : ∃ f, LiveOptimal G f ∧ r.setP = part 1 r.input (W.map fun e => f (lab e)) ∧
    r.setN = part (-1) r.input (W.map fun e => f (lab e)) ∧ r.diff = difference r.input (W.map fun e => f (lab e))
  sums : r.sumP = r.setP.sum ∧ r.sumN = r.setN.sum

/-- What the application yields for the numbers `W` with the interacting pairs `G`. -/
def LiveYields (W : List (El ℚ)) (G : List (El ℚ × El ℚ)) (o : List (Output Report)) : Prop :=
  ((∃ q ∈ G, q.1.data * q.2.data ≠ 0) ∧ (∀ e ∈ W, Active G e) → ∃ r, o = [.result r] ∧ LiveAnswer W G r) ∧
  ((∃ q ∈ G, q.1.data * q.2.data ≠ 0) ∧ (∃ e ∈ W, ¬ Active G e) → o = [.failedUnmap .keyError]) ∧
  ((∀ q ∈ G, q.1.data * q.2.data = 0) → o = [.failedSolve .valueError])

theorem live_cases (hS : Ordered S) (hi : h.Inv S) (hph : PhysicOf (fun σ => liveSum σ h.live) p) :
    LiveYields h.els h.live [outputOf exactSolver p h.els] := by
  have hG := hi.seen
  have hnd := hi.nodup
  have hWS : ∀ e ∈ h.els, e ∈ S := fun e he => hi.sub.subset he
  have solved : (∃ q ∈ h.live, q.1.data * q.2.data ≠ 0) → ∃ res, exactSolver p = .ok res ∧ res ≠ [] ∧
      (∀ r ∈ res, r.2 = p.energy r.1.assign ∧ (dkeys r.1).Nodup ∧ (∀ v, v ∈ dkeys r.1 ↔ p.Uses v) ∧
        ∀ kv ∈ r.1, p.mtype.vtype.Domain kv.2) ∧
      ∀ f : String → ℤ, (∀ v, p.Uses v → p.mtype.vtype.Domain (f v)) → ∃ r ∈ res, ∀ v, p.Uses v → dget r.1 v = some (f v) := by
    intro h2
    have hne : ¬ Props.Empty p := fun hc => by
      obtain ⟨q, hq, h0⟩ := h2
      exact h0 ((live_empty hS hG hnd hph).mp hc q hq)
    obtain ⟨res, log', hr⟩ := C57_success_partial (log := []) hne hph.keyed
    obtain ⟨g1, g2⟩ := C57_all_assignments_partial hne hph.keyed hr
    refine ⟨res, by unfold exactSolver; rw [hr], ?_, g1, g2⟩
    obtain ⟨r, hr', _⟩ := g2 (fun _ => 1) (by rw [hph.mtype]; intro _ _; exact .inl rfl)
    exact List.ne_nil_of_mem hr'
  refine ⟨?_, ?_, ?_⟩
  · rintro ⟨h2, h0⟩
    obtain ⟨res, hres, hne, g1, g2⟩ := solved h2
    obtain ⟨r, hr, hbest, hmin⟩ := best_ok hne
    obtain ⟨e1, e2, e3, e4⟩ := g1 r hr
    let f : String → ℤ := fun v => (dget r.1 v).getD 1
    have hspin : ∀ v, f v = 1 ∨ f v = -1 := by
      intro v
      cases hv : dget r.1 v with
      | none => exact .inl (by simp [f, hv])
      | some x =>
        have hd := e4 _ (dget_mem hv)
        rw [hph.mtype] at hd
        simp only [f, hv, Option.getD_some]
        simpa [MType.vtype, VType.Domain] using hd
    have hused : ∀ {v}, p.Uses v → dget r.1 v = some (f v) := by
      intro v hu
      obtain ⟨x, hx⟩ := (dget_isSome_iff r.1 v).mpr ((e3 _).mpr hu)
      simp [f, hx]
    have hsum : ∀ (x : Sample) (g : String → ℤ), (∀ v, p.Uses v → dget x v = some (g v)) →
        liveSum x.assign h.live = liveSum (fun v => (g v : ℚ)) h.live := by
      intro x g hx
      unfold liveSum
      congr 1
      apply List.map_congr_left
      intro q hq
      obtain ⟨q1, q2, _⟩ := hG q hq
      by_cases hz : q.1.data * q.2.data = 0
      · rw [hz, zero_mul, zero_mul]
      · have u1 := hx _ ((live_uses hS hG hnd hph q1).mpr ⟨q, hq, hz, .inl rfl⟩)
        have u2 := hx _ ((live_uses hS hG hnd hph q2).mpr ⟨q, hq, hz, .inr rfl⟩)
        simp [Sample.assign, u1, u2]
    have hopt : LiveOptimal h.live f := by
      refine ⟨hspin, fun g hg => ?_⟩
      obtain ⟨r', hr', hv⟩ := g2 g (by rw [hph.mtype]; intro v _; simpa [MType.vtype, VType.Domain] using hg v)
      have hle := hmin r' hr'
      obtain ⟨e1', _⟩ := g1 r' hr'
      rw [e1, e1', hph.energy, hph.energy, hsum r.1 f (fun v hv => hused hv), hsum r'.1 g hv] at hle
      exact hle
    let signs := h.els.map fun e => f (lab e)
    have hfa : List.Forall₂ (fun e s => dget r.1 (lab e) = some s ∧ (s = 1 ∨ s = -1)) h.els signs := by
      rw [List.forall₂_map_right_iff, List.forall₂_same]
      exact fun e he => ⟨hused ((live_uses hS hG hnd hph (hWS e he)).mpr (h0 e he)), hspin _⟩
    have hsigns : Signs (h.els.map (·.data)) signs := by
      refine ⟨by simp [signs], fun s hs => ?_⟩
      obtain ⟨e, he, rfl⟩ := List.mem_map.mp hs
      exact hspin _
    have hun := unmap_fold hfa (([], 0), ([], 0))
    have hout : outputOf exactSolver p h.els = .result ⟨h.els.map (·.data), part 1 (h.els.map (·.data)) signs,
        part (-1) (h.els.map (·.data)) signs, (part 1 (h.els.map (·.data)) signs).sum, (part (-1) (h.els.map (·.data)) signs).sum,
        difference (h.els.map (·.data)) signs⟩ := by
      unfold outputOf unmapping
      rw [hres]
      simp only [hbest, Except.bind_ok, hun]
      simp only [List.nil_append, zero_add, parts_difference hsigns]
      rfl
    exact ⟨_, by rw [hout], rfl, ⟨f, hopt, rfl, rfl, rfl⟩, rfl, rfl⟩
  · rintro ⟨h2, e, he, h0⟩
    obtain ⟨res, hres, hne, g1, g2⟩ := solved h2
    obtain ⟨r, hr, hbest, _⟩ := best_ok hne
    obtain ⟨_, _, e3, _⟩ := g1 r hr
    have hnone : dget r.1 (lab e) = none := by
      rw [dget_eq_none_iff, e3, live_uses hS hG hnd hph (hWS e he)]
      exact h0
    unfold outputOf unmapping
    rw [hres]
    simp only [hbest, Except.bind_ok, unmap_missing he hnone]
    rfl
  · intro hz
    have := (C56_empty ((live_empty hS hG hnd hph).mpr hz)).1 none []
    unfold outputOf exactSolver
    rw [this]

/-- With the exact solver and the partial algorithm, over batches of a stream: every window reports the parts that optimal
spins for the pairs held determine, or it fails, exactly as said. -/
theorem C108_answer {ws : List (Bool × Win ℚ)} {parts : List (List (El ℚ))}
    (hp : List.Forall₂ (fun w part => w.2.elements.Perm part ∧ part ≠ []) ws parts) (hI : Increasing parts.flatten)
    (ho : InOrder (-1) (ws.map (·.2))) :
    ∃ os st', (processAll (.«partial» fun x => .ok (keep x)) (fns now render env clks ids exactSolver) (LModel.new .ising id) ws).run
        St.start = .ok os st' ∧
      os.length = ws.length ∧
      ∀ (i : Nat) o, os[i]? = some o →
        LiveYields (heldAfter keep (parts.take (i + 1))).els (heldAfter keep (parts.take (i + 1))).live o := by
  obtain ⟨os, st', new, h1, h2, h3, h4, h5, _⟩ := filter_run (now := now) (render := render) (env := env) (clks := clks) (ids := ids)
    (solver := exactSolver) (st := St.start) (initial := LModel.new .ising id) (k := 0) (S := []) (h := ⟨[], []⟩) (keep := keep) hp
    (by simpa using hI) ho rfl Held.Inv.start ((tracks_new id).2.congr (fun _ _ hp => hp) (fun σ => by simp [pairs, signedSum, liveSum]))
    (by simp) (fun _ _ => Nat.zero_le _)
  refine ⟨os, st', h1, h3, fun i o hio => ?_⟩
  obtain ⟨p, hph, rfl⟩ := h5 i o hio
  exact live_cases (take_increasing hI _).ordered (held_inv _ (take_increasing hI _)) hph

/-- Where the model is that of the window, the window yields an optimal partition of its numbers. -/
theorem C108_answer_when {ws : List (Bool × Win ℚ)} {parts : List (List (El ℚ))}
    (hp : List.Forall₂ (fun w part => w.2.elements.Perm part ∧ part ≠ []) ws parts) (hI : Increasing parts.flatten)
    (ho : InOrder (-1) (ws.map (·.2))) :
    ∃ os st', (processAll (.«partial» fun x => .ok (keep x)) (fns now render env clks ids exactSolver) (LModel.new .ising id) ws).run
        St.start = .ok os st' ∧
      os.length = ws.length ∧
      ∀ (i : Nat) o, os[i]? = some o →
        (∀ y ∈ (parts.take i).flatten, ∀ x ∈ (parts.take i).flatten, keep y = true → y.ts < x.ts → keep x = true ∨ x.data = 0) →
        Yields (heldAfter keep (parts.take (i + 1))).els o := by
  obtain ⟨os, st', new, h1, h2, h3, h4, h5, _⟩ := filter_run (now := now) (render := render) (env := env) (clks := clks) (ids := ids)
    (solver := exactSolver) (st := St.start) (initial := LModel.new .ising id) (k := 0) (S := []) (h := ⟨[], []⟩) (keep := keep) hp
    (by simpa using hI) ho rfl Held.Inv.start ((tracks_new id).2.congr (fun _ _ hp => hp) (fun σ => by simp [pairs, signedSum, liveSum]))
    (by simp) (fun _ _ => Nat.zero_le _)
  refine ⟨os, st', h1, h3, fun i o hio hz => ?_⟩
  obtain ⟨p, hph, rfl⟩ := h5 i o hio
  have hlen : i < parts.length := by
    rw [← hp.length_eq, ← h3]
    exact (List.getElem?_eq_some_iff.mp hio).1
  have htake : parts.take (i + 1) = parts.take i ++ [parts[i]] := by rw [List.take_succ_eq_append_getElem hlen]
  have hI1 := take_increasing hI (i + 1)
  have hinv := held_inv (keep := keep) _ hI1
  refine yields (hI1.sublist hinv.sub) ⟨p, ⟨hph.mtype, hph.keyed, hph.nonzero, fun σ => ?_⟩, rfl⟩
  rw [hph.energy]
  show liveSum σ (heldAfter keep (parts.take (i + 1))).live = _
  rw [live_split hI1 hinv, add_eq_left]
  apply List.sum_eq_zero
  intro v hv
  obtain ⟨q, hq, rfl⟩ := List.mem_map.mp hv
  obtain ⟨hq1, hq2⟩ := List.mem_filter.mp hq
  rw [decide_eq_true_eq, not_and_or] at hq2
  rw [htake] at hI1 hq1 hq2
  have key : ∀ x, (x = q.1 ∨ x = q.2) → x ∉ (heldAfter keep (parts.take i ++ [parts[i]])).els → x.data = 0 := by
    intro x hx hm
    rcases ghost_after _ _ hI1 q hq1 x hx with h | ⟨g1, g2, y, g3, g4, g5⟩
    · exact absurd h hm
    · rcases hz y g3 x g1 g4 g5 with h | h
      · rw [g2] at h; cases h
      · exact h
  rcases hq2 with hm | hm
  · rw [key _ (.inl rfl) hm]; ring
  · rw [key _ (.inr rfl) hm]; ring

/-! ## Examples -/

/-- The filter of the sample. -/
def Ex.above90 : El ℚ → Bool := fun x => decide (90 < x.data)

/-- Three batches. -/
def Ex.batches : List (List (El ℚ)) := [[⟨1, 0, 20⟩, ⟨2, 1, 95⟩], [⟨4, 2, 30⟩, ⟨5, 3, 97⟩], [⟨7, 4, 40⟩]]

def Ex.batchWins : List (Bool × Win ℚ) :=
  [(false, ⟨3, [⟨2, 1, 95⟩, ⟨1, 0, 20⟩]⟩), (true, ⟨6, [⟨4, 2, 30⟩, ⟨5, 3, 97⟩]⟩), (false, ⟨9, [⟨7, 4, 40⟩]⟩)]

example : List.Forall₂ (fun w part => w.2.elements.Perm part ∧ part ≠ []) Ex.batchWins Ex.batches :=
  .cons ⟨by decide +kernel, by simp⟩ (.cons ⟨by decide +kernel, by simp⟩ (.cons ⟨by decide +kernel, by simp⟩ .nil))

example : Increasing Ex.batches.flatten ∧ InOrder (-1) (Ex.batchWins.map (·.2)) ∧ ∀ x, Ex.above90 x = true → x.data ≠ 0 := by
  refine ⟨by unfold Increasing; decide +kernel, by norm_num [Ex.batchWins, InOrder], fun x hx h0 => ?_⟩
  have : (90 : ℚ) < x.data := by simpa [Ex.above90] using hx
  rw [h0] at this
  norm_num at this

/-- 20 leaves with its interactions, as nothing kept is before it; 30 leaves the window but not the model. -/
example : (heldAfter Ex.above90 (Ex.batches.take 2)).els = [⟨2, 1, 95⟩, ⟨4, 2, 30⟩, ⟨5, 3, 97⟩] ∧
    (heldAfter Ex.above90 Ex.batches).els = [⟨2, 1, 95⟩, ⟨5, 3, 97⟩, ⟨7, 4, 40⟩] ∧
    (⟨2, 1, 95⟩, ⟨4, 2, 30⟩) ∈ (heldAfter Ex.above90 Ex.batches).live ∧
    (⟨1, 0, 20⟩, ⟨2, 1, 95⟩) ∉ (heldAfter Ex.above90 (Ex.batches.take 2)).live := by decide +kernel

example : Ex.nppRun (.«partial» fun x => .ok (Ex.above90 x)) Ex.batchWins = some
    [[.result ⟨[20, 95], [20], [95], 20, 95, 75⟩], [.result ⟨[95, 30, 97], [95, 30], [97], 125, 97, 28⟩],
     [.result ⟨[95, 97, 40], [97], [95, 40], 97, 135, 38⟩]] := by
  decide +kernel

end Sawatabi.Props
