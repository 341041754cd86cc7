import Verif.Spec.NppTies
import Verif.Lemmas.NppFilter
import Mathlib.Data.List.Dedup
import Mathlib.Algebra.BigOperators.Ring.List

/-!
# Lemmas: number partitioning where several numbers have the same time
-/

namespace Sawatabi.NppStream

open Stream Props

variable {k : Nat} {P : Nat → Nat → Prop} {F : Assign → ℚ} {m : LModel} {W S : List (El ℚ)} {G : List (El ℚ × El ℚ)}

/-! ## Energies -/

theorem due_sum (σ : Assign) (W : List (El ℚ)) : liveSum σ (duePairs W) = (W.map (pairsOf σ W)).sum := liveSum_new σ W W

theorem mem_due {q : El ℚ × El ℚ} : q ∈ duePairs W ↔ q.1 ∈ W ∧ q.2 ∈ W ∧ q.1.ts < q.2.ts := by
  obtain ⟨j, i⟩ := q
  simp only [duePairs, List.mem_flatMap, List.mem_map, List.mem_filter, decide_eq_true_eq]
  constructor
  · rintro ⟨i', hi, j', ⟨hj, hlt⟩, he⟩
    cases he
    exact ⟨hj, hi, hlt⟩
  · rintro ⟨hj, hi, hlt⟩
    exact ⟨i, hi, j, ⟨hj, hlt⟩, rfl⟩

theorem ordered_nodup (h : Ordered W) : W.Nodup := h.imp fun {a b} hab hc => by
  rw [hc] at hab
  exact lt_irrefl _ hab.2

theorem due_nodup (h : Ordered W) : (duePairs W).Nodup := by
  have hnd := ordered_nodup h
  unfold duePairs
  rw [List.nodup_flatMap]
  refine ⟨fun i _ => (hnd.filter _).map fun a b hab => by cases hab; rfl, ?_⟩
  refine hnd.imp ?_
  intro i i' hne q hq hq'
  obtain ⟨j, _, rfl⟩ := List.mem_map.mp hq
  obtain ⟨j', _, he⟩ := List.mem_map.mp hq'
  cases he
  exact hne rfl

theorem pairsOf_zero {σ : Assign} {i : El ℚ} (h : σ (lab i) = 0) : pairsOf σ W i = 0 := by
  rw [pairsOf_eq, h]
  ring

/-- The energy when `out` leaves and `inc` comes. -/
theorem due_move {σ : Assign} {out kept inc : List (El ℚ)} (h : Ordered (out ++ kept ++ inc)) :
    liveSum (zeroed σ out) (duePairs (out ++ kept)) + (inc.map (pairsOf (zeroed σ out) (kept ++ inc))).sum =
      liveSum σ (duePairs (kept ++ inc)) := by
  have hz : ∀ e ∈ kept ++ inc, zeroed σ out (lab e) = σ (lab e) := by
    intro e he
    unfold zeroed
    rw [if_neg]
    intro hc
    obtain ⟨o, ho, hl⟩ := List.mem_map.mp hc
    have h1 := lab_inj hl
    rw [List.append_assoc] at h
    have h2 := ((List.pairwise_append.mp h).2.2 o ho e he).2
    omega
  have ho : ∀ o ∈ out, zeroed σ out (lab o) = 0 := by
    intro o ho
    unfold zeroed
    rw [if_pos (List.mem_map.mpr ⟨o, ho, rfl⟩)]
  rw [due_sum, due_sum, List.map_append, List.sum_append, List.map_append, List.sum_append]
  have h1 : (out.map (pairsOf (zeroed σ out) (out ++ kept))).sum = 0 := by
    apply List.sum_eq_zero
    intro x hx
    obtain ⟨o, hm, rfl⟩ := List.mem_map.mp hx
    exact pairsOf_zero (ho o hm)
  have h2 : kept.map (pairsOf (zeroed σ out) (out ++ kept)) = kept.map (pairsOf σ (kept ++ inc)) := by
    apply List.map_congr_left
    intro i hi
    rw [← pairsOf_congr (σ := zeroed σ out) (hz i (by simp [hi])) hz, pairsOf_eq, pairsOf_eq, List.filter_append, List.filter_append,
      signedSum_append, signedSum_append]
    have e1 : signedSum (zeroed σ out) (out.filter fun j => decide (j.ts < i.ts)) = 0 := by
      apply List.sum_eq_zero
      intro x hx
      obtain ⟨o, hm, rfl⟩ := List.mem_map.mp hx
      rw [ho o (List.mem_of_mem_filter hm), mul_zero]
    have e2 : inc.filter (fun j => decide (j.ts < i.ts)) = [] := by
      rw [List.filter_eq_nil_iff]
      intro x hx
      have := ((List.pairwise_append.mp h).2.2 i (by simp [hi]) x hx).1
      simpa using this
    rw [e1, e2, zero_add]
    simp [signedSum]
  have h3 : inc.map (pairsOf (zeroed σ out) (kept ++ inc)) = inc.map (pairsOf σ (kept ++ inc)) :=
    List.map_congr_left fun i hi => pairsOf_congr (hz i (by simp [hi])) hz
  rw [h1, h2, h3, zero_add]

/-- The sum over the pairs of different times in closed form. -/
theorem due_closed (σ : Assign) (W : List (El ℚ)) : 2 * liveSum σ (duePairs W) = signedSum σ W ^ 2 - tied σ W := by
  let f : El ℚ → ℚ := fun e => e.data * σ (lab e)
  have hif : ∀ (c : El ℚ → Prop) [DecidablePred c] (l : List (El ℚ)), signedSum σ (l.filter fun e => decide (c e)) = (l.map fun e => if c e then f e else 0).sum := by
    intro c _ l
    induction l with
    | nil => rfl
    | cons e l ih =>
      rw [List.filter_cons]
      by_cases h : c e
      · simp only [h, decide_true, if_true, List.map_cons, List.sum_cons, ← ih]
        rfl
      · simp [h, ← ih]
  -- the sum over the times
  have hT : tied σ W = (W.map fun i => f i * (W.map fun j => if j.ts = i.ts then f j else 0).sum).sum := by
    have key : ∀ (g : ℚ → ℚ) (T : List ℚ), T.Nodup → ∀ l : List (El ℚ), (∀ e ∈ l, e.ts ∈ T) →
        (T.map fun t => signedSum σ (l.filter fun e => decide (e.ts = t)) * g t).sum = (l.map fun i => f i * g i.ts).sum := by
      intro g T hT l
      induction l with
      | nil => intro _; simp [signedSum]
      | cons e l ih =>
        intro hl
        have ih := ih fun x hx => hl x (by simp [hx])
        rw [List.map_cons, List.sum_cons, ← ih]
        have : ∀ t, signedSum σ ((e :: l).filter fun e => decide (e.ts = t)) * g t =
            (if t = e.ts then f e * g t else 0) + signedSum σ (l.filter fun e => decide (e.ts = t)) * g t := by
          intro t
          rw [List.filter_cons]
          by_cases h : e.ts = t
          · simp only [h, decide_true, if_true, signedSum, List.map_cons, List.sum_cons]
            ring
          · have h' : ¬ t = e.ts := fun hc => h hc.symm
            simp [h, h']
        rw [List.map_congr_left fun t _ => this t, List.sum_map_add]
        congr 1
        rw [sum_single hT (hl e (by simp)) (fun y _ hy => by rw [if_neg hy]), if_pos rfl]
    unfold tied
    have := key (fun t => signedSum σ (W.filter fun e => decide (e.ts = t))) (instants W) (List.nodup_dedup _) W
      (fun e he => List.mem_dedup.mpr (List.mem_map.mpr ⟨e, he, rfl⟩))
    simp only [pow_two]
    rw [this]
    congr 1
    apply List.map_congr_left
    intro i _
    rw [hif (fun e => e.ts = i.ts)]
  have hS : signedSum σ W ^ 2 = (W.map fun i => f i * (W.map f).sum).sum := by
    rw [List.sum_map_mul_right, pow_two]
    rfl
  have hL : liveSum σ (duePairs W) = (W.map fun i => f i * (W.map fun j => if j.ts < i.ts then f j else 0).sum).sum := by
    rw [due_sum]
    congr 1
    apply List.map_congr_left
    intro i _
    rw [pairsOf_eq, hif (fun j => j.ts < i.ts)]
  have hL' : liveSum σ (duePairs W) = (W.map fun i => f i * (W.map fun j => if i.ts < j.ts then f j else 0).sum).sum := by
    rw [hL]
    have swap : ∀ l l' : List (El ℚ), (l.map fun i => f i * (l'.map fun j => if j.ts < i.ts then f j else 0).sum).sum =
        (l'.map fun j => f j * (l.map fun i => if j.ts < i.ts then f i else 0).sum).sum := by
      intro l l'
      induction l with
      | nil => simp
      | cons a l ih =>
        rw [List.map_cons, List.sum_cons, ih]
        simp only [List.map_cons, List.sum_cons, mul_add, List.sum_map_add]
        congr 1
        rw [← List.sum_map_mul_left]
        congr 1
        apply List.map_congr_left
        intro j _
        by_cases h : j.ts < a.ts <;> simp [h, mul_comm]
    exact swap W W
  have : 2 * liveSum σ (duePairs W) = liveSum σ (duePairs W) + liveSum σ (duePairs W) := by ring
  rw [this]
  conv_lhs => arg 1; rw [hL]
  rw [hL', hS, hT, eq_sub_iff_add_eq, ← List.sum_map_add, ← List.sum_map_add]
  congr 1
  apply List.map_congr_left
  intro i _
  rw [← mul_add, ← mul_add, ← List.sum_map_add, ← List.sum_map_add]
  congr 2
  apply List.map_congr_left
  intro j _
  rcases lt_trichotomy j.ts i.ts with h | h | h
  · simp [h, h.ne, not_lt.mpr h.le]
  · simp [h]
  · simp [h, h.ne', not_lt.mpr h.le]

/-! ## One window -/

/-- The model of the numbers `W`, with `k` variables so far. -/
def DueTracks (k : Nat) (W : List (El ℚ)) (m : LModel) : Prop :=
  (∀ e ∈ W, e.idx < k) ∧ Mid k (fun a _ => a < k) (fun σ => liveSum σ (duePairs W)) m

theorem due_new (id : String) : DueTracks 0 [] (LModel.new .ising id) :=
  ⟨by simp, (tracks_new id).2.congr (fun _ _ hp => hp) (fun σ => by simp [pairs, signedSum, liveSum, duePairs])⟩

variable {now : ℚ} {render : El ℚ → String} {env : Env} {clks : Nat → Nat → ℚ} {ids : Nat → String}
  {solver : Physical → Except Err (List (Sample × ℚ))} {alg : Algorithm LModel ℚ} {initial : LModel}
  {st : St LModel (List (Sample × ℚ)) ℚ}

/-- The result of a window. -/
structure DueStep (solver : Physical → Except Err (List (Sample × ℚ))) (els : List (El ℚ)) (k : Nat) (t : ℚ)
    (st st' : St LModel (List (Sample × ℚ)) ℚ) (o : List (Output Report)) (m : LModel) : Prop where
  ts : st'.ts = some t
  elements : st'.elements = some els
  model : ∃ m', st'.model = some m' ∧ DueTracks k els m'
  calls : solveArgs st'.calls = solveArgs st.calls ++ [(m, els)]
  tracks : DueTracks k els m
  output : ∃ p, PhysicOf (fun σ => liveSum σ (duePairs els)) p ∧ o = [outputOf solver p els]

theorem due_step (ha : ∀ s, alg ≠ .attenuation s) {w : Win ℚ} (shared : Bool) (hts : st.ts.getD (-1) ≤ w.ts)
    {out kept inc : List (El ℚ)} (hprev : st.elements.getD [] = out ++ kept) (ht : DueTracks k (out ++ kept) (st.model.getD initial))
    (hcur : currentElements alg (out ++ kept) (sorted w.elements) = .ok (kept ++ inc))
    (hout : resolveOutgoing (out ++ kept) (kept ++ inc) = .ok out) (hin : resolveIncoming (out ++ kept) (kept ++ inc) = inc)
    (hinc : Ordered (out ++ kept ++ inc)) (hk : ∀ i ∈ inc, k ≤ i.idx) (hne : kept ++ inc ≠ []) :
    ∃ o st' m, (process alg (fns now render env clks ids solver) initial shared w).run st = .ok o st' ∧
      DueStep solver (kept ++ inc) (grown k inc) w.ts st st' o m := by
  have hpos : inc = [] → 0 < k := by
    rintro rfl
    rw [List.append_nil] at hne
    obtain ⟨e, l, rfl⟩ := List.exists_cons_of_ne_nil hne
    exact lt_of_le_of_lt (Nat.zero_le _) (ht.1 e (by simp))
  have hI : Ordered inc := (List.pairwise_append.mp hinc).2.1
  have hE : Ordered (kept ++ inc) := by
    rw [List.append_assoc] at hinc
    exact (List.pairwise_append.mp hinc).2.1
  obtain ⟨m, hm, hmid⟩ := mapping_mid now render st.sampleset ht.2 hE hI (fun i hi => by simp [hi]) hk hpos (out := out)
    (fun o ho => ht.1 o (by simp [ho]))
  have htr : DueTracks (grown k inc) (kept ++ inc) m := by
    refine ⟨?_, hmid.congr (fun _ _ hp => hp) fun σ => due_move hinc⟩
    have hg : ∀ i ∈ inc, i.idx < grown k inc := by
      intro i hi
      unfold grown
      rw [List.getLast?_eq_some_getLast (List.ne_nil_of_mem hi)]
      show i.idx < (inc.getLast _).idx + 1
      exact Nat.lt_succ_of_le (le_getLast hI hi)
    have hkg : k ≤ grown k inc := by
      clear hmid hm hcur hout hin hinc hne hpos hE hI
      cases inc with
      | nil => exact le_rfl
      | cons i is => exact (hk i (by simp)).trans (hg i (by simp)).le
    intro e he
    rcases List.mem_append.mp he with he | he
    · exact (ht.1 e (by simp [he])).trans_le hkg
    · exact hg e he
  obtain ⟨p, hp, hph, hmid'⟩ := htr.2.physicOf env clks ids
  have htr' : DueTracks (grown k inc) (kept ++ inc) m.cleaned := ⟨htr.1, hmid'⟩
  rw [process_run, if_neg (not_lt.mpr hts), hprev, hcur]
  simp only [hout, hin]
  unfold afterMap
  simp only [fns]
  rw [hm]
  have hatt : ∀ st : St LModel (List (Sample × ℚ)) ℚ, (attenuationStage alg m).run st = .ok m st := by
    intro st
    unfold attenuationStage
    cases alg with
    | attenuation s => exact absurd rfl (ha s)
    | _ => rfl
  simp only [hatt]
  rw [solveStage_run]
  have hs : (solving env clks ids solver st.sampleset (kept ++ inc) inc out).run m =
      match solver p with
      | .ok s => .ok s m.cleaned
      | .error e => .error e m.cleaned := by
    unfold solving
    simp only [Py.run_bind, hp, Py.run_liftE]
    cases solver p <;> rfl
  simp only [hs]
  cases hsol : solver p with
  | error e =>
    refine ⟨_, _, m, rfl, rfl, rfl, ⟨_, rfl, htr'⟩, ?_, htr, p, hph, ?_⟩
    · simp [solveArgs, List.filterMap_append]
    · simp [outputOf, hsol]
  | ok s =>
    refine ⟨_, _, m, rfl, rfl, rfl, ⟨_, rfl, htr'⟩, ?_, htr, p, hph, ?_⟩
    · simp [solveArgs, List.filterMap_append]
    · unfold outputOf
      rw [hsol]
      have : unmapping s (kept ++ inc) inc out = unmapping s (kept ++ inc) [] [] := rfl
      simp only [this]
      cases unmapping s (kept ++ inc) [] [] <;> rfl

/-! ## Runs -/

/-- What the windows of a run yield, and what the models are. -/
def DueRuns (solver : Physical → Except Err (List (Sample × ℚ))) (els : List (List (El ℚ))) (os : List (List (Output Report)))
    (calls : List (LModel × List (El ℚ))) : Prop :=
  List.Forall₂ (fun W o => ∃ p, PhysicOf (fun σ => liveSum σ (duePairs W)) p ∧ o = [outputOf solver p W]) els os ∧
  List.Forall₂ (fun W c => c.2 = W ∧ ∃ k, DueTracks k W c.1) els calls

theorem due_sliding_run {E : List (El ℚ)} (hE : Ordered E) (halg : alg = .window ∨ alg = .delta) {ws : List (Bool × Win ℚ)}
    {a b : ℚ} (hs : Sliding E a b (ws.map (·.2))) (ho : InOrder (st.ts.getD (-1)) (ws.map (·.2)))
    (hel : st.elements.getD [] = slice E a b) (ht : DueTracks k (slice E a b) (st.model.getD initial))
    (hbound : ∀ x ∈ E, b ≤ x.ts → k ≤ x.idx) :
    ∃ os st' new, (processAll alg (fns now render env clks ids solver) initial ws).run st = .ok os st' ∧
      solveArgs st'.calls = solveArgs st.calls ++ new ∧ DueRuns solver (ws.map fun w => sorted w.2.elements) os new := by
  induction ws generalizing st k a b with
  | nil => exact ⟨[], st, [], rfl, by simp, .nil, .nil⟩
  | cons w ws ih =>
    obtain ⟨a', b', haa, hbb, hcut, hrest⟩ := hs
    obtain ⟨ho1, ho2⟩ := ho
    have hcs := cut_slice hE hcut
    have hne : slice E a' b' ≠ [] := by
      obtain ⟨c, cs, hc⟩ := Props.Cut.ne hcut
      rw [← hcs, hc]
      simp
    obtain ⟨out, kept, inc, e1, e2, hinc, _, hout, hin, hk, hb'⟩ := sliding_split hE haa hbb hne hbound
    obtain ⟨o, st1, m, hr, hstep⟩ := due_step (now := now) (render := render) (env := env) (clks := clks) (ids := ids) (solver := solver)
      (alg := alg) (initial := initial) (st := st) (k := k)
      (by rcases halg with rfl | rfl <;> simp) w.1 ho1 (out := out) (kept := kept) (inc := inc) (by rw [hel, e1])
      (by rw [← e1]; exact ht) (by rw [← e1, hcs, e2]; rcases halg with rfl | rfl <;> rfl) hout hin hinc hk (by rw [← e2]; exact hne)
    rw [← e2] at hstep
    obtain ⟨m', hm', htr'⟩ := hstep.model
    obtain ⟨os, st2, new, hr2, hc2, hruns⟩ := ih (st := st1) (k := grown k inc) hrest (by rw [hstep.ts]; exact ho2)
      (by rw [hstep.elements]; rfl) (by rw [hm']; exact htr') hb'
    refine ⟨o :: os, st2, (m, slice E a' b') :: new, ?_, ?_, ?_⟩
    · simp only [processAll, Py.run_bind, hr, hr2, Py.run_pure]
    · rw [hc2, hstep.calls]; simp
    · simp only [List.map_cons, hcs]
      exact ⟨.cons hstep.output hruns.1, .cons ⟨rfl, _, hstep.tracks⟩ hruns.2⟩

/-- The same from the start. -/
theorem due_sliding_start {E : List (El ℚ)} (hE : Ordered E) (halg : alg = .window ∨ alg = .delta) {ws : List (Bool × Win ℚ)}
    {a b : ℚ} (hs : Sliding E a b (ws.map (·.2))) (ho : InOrder (-1) (ws.map (·.2))) (id : String) :
    ∃ os st', (processAll alg (fns now render env clks ids solver) (LModel.new .ising id) ws).run St.start = .ok os st' ∧
      DueRuns solver (ws.map fun w => sorted w.2.elements) os (solveArgs st'.calls) := by
  cases ws with
  | nil => exact ⟨[], St.start, rfl, .nil, .nil⟩
  | cons w ws =>
    obtain ⟨a', b', haa, hbb, hcut, hrest⟩ := hs
    have h0 : slice E a' a' = [] := by
      rw [slice, List.filter_eq_nil_iff]
      intro x _
      simp only [Bool.and_eq_true, decide_eq_true_eq, not_and, not_lt]
      exact fun h => h
    have hle : a' ≤ b' := by
      obtain ⟨c, cs, hc⟩ := Props.Cut.ne hcut
      have : c ∈ sorted w.2.elements := by rw [hc]; simp
      have := (Props.Cut.mem hcut).mp this
      linarith
    obtain ⟨os, st', new, h1, h2, h3⟩ := due_sliding_run (now := now) (render := render) (env := env) (clks := clks) (ids := ids)
      (solver := solver) (st := St.start) (initial := LModel.new .ising id) (k := 0) hE halg (ws := w :: ws) (a := a') (b := a')
      ⟨a', b', le_rfl, hle, hcut, hrest⟩ ho (by rw [h0]; rfl) (by rw [h0]; exact due_new id) (fun _ _ _ => Nat.zero_le _)
    refine ⟨os, st', h1, ?_⟩
    rw [h2]
    exact h3

theorem due_incremental_run {ws : List (Bool × Win ℚ)} {prev : List (El ℚ)} {parts : List (List (El ℚ))}
    (hp : List.Forall₂ (fun w part => w.2.elements.Perm part ∧ part ≠ []) ws parts) (hI : Ordered (prev ++ parts.flatten))
    (hB : (prev :: parts).Pairwise fun p q => ∀ a ∈ p, ∀ b ∈ q, a.ts < b.ts)
    (ho : InOrder (st.ts.getD (-1)) (ws.map (·.2))) (hel : st.elements.getD [] = prev) (ht : DueTracks k prev (st.model.getD initial))
    (hbound : ∀ x ∈ parts.flatten, k ≤ x.idx) :
    ∃ os st' new, (processAll .incremental (fns now render env clks ids solver) initial ws).run st = .ok os st' ∧
      solveArgs st'.calls = solveArgs st.calls ++ new ∧ DueRuns solver (growing prev parts) os new := by
  induction hp generalizing st k prev with
  | nil => exact ⟨[], st, [], rfl, by simp, .nil, .nil⟩
  | @cons w part ws parts hw hrest ih =>
    obtain ⟨hperm, hne⟩ := hw
    obtain ⟨ho1, ho2⟩ := ho
    rw [List.flatten_cons, ← List.append_assoc] at hI
    have hI1 := (List.pairwise_append.mp hI).1
    have hI2 := List.pairwise_append.mp hI1
    obtain ⟨hB1, hB2⟩ := List.pairwise_cons.mp hB
    obtain ⟨hB3, hB4⟩ := List.pairwise_cons.mp hB2
    have hcur : sorted (sorted w.2.elements ++ prev) = prev ++ part := by
      apply sorted_increasing hI1
      exact (((sorted_perm _).trans hperm).append_right prev).trans List.perm_append_comm
    have hk : ∀ i ∈ part, k ≤ i.idx := fun i hi => hbound i (by simp [hi])
    obtain ⟨c, cs, hc⟩ := List.exists_cons_of_ne_nil (show prev ++ part ≠ [] by simp [hne])
    have htimed : Timed (prev ++ part) := hI1.imp fun {x y} h => h.1
    have hout : resolveOutgoing prev (prev ++ part) = .ok [] := by
      rw [hc, outgoing_timed (hI2.1.imp fun {x y} h => h.1)]
      congr 1
      rw [List.filter_eq_nil_iff]
      intro x hx
      have hx' : x ∈ prev ++ part := by simp [hx]
      rw [hc] at hx' htimed
      simp only [decide_eq_true_eq, not_lt]
      rcases List.mem_cons.mp hx' with rfl | hx'
      · exact le_rfl
      · exact (List.pairwise_cons.mp htimed).1 x hx'
    have hin : resolveIncoming prev (prev ++ part) = part := by
      rcases List.eq_nil_or_concat prev with h0 | ⟨l, last, hl⟩
      · rw [h0, incoming_nil]; rfl
      · have hlast : prev.getLast? = some last := by rw [hl]; simp
        have hlm : last ∈ prev := List.mem_of_getLast? hlast
        rw [incoming_timed htimed hlast, List.filter_append]
        have e1 : prev.filter (fun v => decide (last.ts < v.ts)) = [] := by
          rw [List.filter_eq_nil_iff]
          intro x hx
          simp only [decide_eq_true_eq, not_lt]
          have hi := hI2.1
          rw [hl, List.concat_eq_append] at hx hi
          rcases List.mem_append.mp hx with hx | hx
          · exact ((List.pairwise_append.mp hi).2.2 x hx last (by simp)).1
          · rw [List.mem_singleton.mp hx]
        have e2 : part.filter (fun v => decide (last.ts < v.ts)) = part := by
          rw [List.filter_eq_self]
          intro x hx
          exact decide_eq_true (hB1 part (by simp) last hlm x hx)
        rw [e1, e2]; rfl
    obtain ⟨o, st1, m, hr, hstep⟩ := due_step (now := now) (render := render) (env := env) (clks := clks) (ids := ids) (solver := solver)
      (alg := .incremental) (initial := initial) (st := st) (k := k) (by simp) w.1 ho1 (out := []) (kept := prev) (inc := part) hel
      ht (by show Except.ok _ = _; rw [List.nil_append, hcur]) hout hin hI1 hk (by simp [hne])
    obtain ⟨m', hm', htr'⟩ := hstep.model
    have hb' : ∀ x ∈ parts.flatten, grown k part ≤ x.idx := by
      intro x hx
      unfold grown
      rcases List.eq_nil_or_concat part with h0 | ⟨l, last, hl⟩
      · exact absurd h0 hne
      · rw [hl]
        simp only [List.concat_eq_append, List.getLast?_append, List.getLast?_singleton, Option.or_some, Option.getD_some]
        exact ((List.pairwise_append.mp hI).2.2 last (by simp [hl]) x hx).2
    have hB' : ((prev ++ part) :: parts).Pairwise fun p q => ∀ a ∈ p, ∀ b ∈ q, a.ts < b.ts := by
      refine List.pairwise_cons.mpr ⟨fun q hq a ha b hb => ?_, hB4⟩
      rcases List.mem_append.mp ha with ha | ha
      · exact hB1 q (by simp [hq]) a ha b hb
      · exact hB3 q hq a ha b hb
    obtain ⟨os, st2, new, hr2, hc2, hruns⟩ := ih (st := st1) (k := grown k part) (prev := prev ++ part) hI hB'
      (by rw [hstep.ts]; exact ho2) (by rw [hstep.elements]; rfl) (by rw [hm']; exact htr') hb'
    refine ⟨o :: os, st2, (m, prev ++ part) :: new, ?_, ?_, ?_⟩
    · simp only [processAll, Py.run_bind, hr, hr2, Py.run_pure]
    · rw [hc2, hstep.calls]; simp
    · exact ⟨.cons hstep.output hruns.1, .cons ⟨rfl, _, hstep.tracks⟩ hruns.2⟩

end Sawatabi.NppStream
