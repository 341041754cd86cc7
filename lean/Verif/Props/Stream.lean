import Verif.Spec.Stream
import Verif.Lemmas.Stream
import Verif.Props.Examples

/-!
# C64–C67, C71, C74: windows of a stream
-/

namespace Sawatabi.Props

open Stream

variable {M S δ β : Type} {alg : Algorithm M δ} {f : Fns M S δ β} {initial : M} {st st' : St M S δ}

/-! ## C64: one output per window -/

/-- Neither the filter nor the attenuation step raises. -/
def NoRaise : Algorithm M δ → Prop
  | .«partial» g => ∀ x, ∃ b, g x = .ok b
  | .attenuation step => ∀ m, ∃ m', step.run m = .ok () m'
  | _ => True

theorem filterE_total {g : El δ → Except Err Bool} (hg : ∀ x, ∃ b, g x = .ok b) (l : List (El δ)) : ∃ r, filterE g l = .ok r := by
  induction l with
  | nil => exact ⟨[], rfl⟩
  | cons a l ih =>
    obtain ⟨b, hb⟩ := hg a
    obtain ⟨r, hr⟩ := ih
    exact ⟨if b then a :: r else r, by unfold filterE; rw [hb, Except.bind_ok, hr]; rfl⟩

theorem currentElements_total (hg : NoRaise alg) (prev : List (El δ)) {cur : List (El δ)} (hc : cur ≠ []) :
    ∃ c cs, currentElements alg prev cur = .ok (c :: cs) := by
  have hs : ∀ l : List (El δ), l ≠ [] → ∃ c cs, sorted l = c :: cs := by
    intro l hl
    cases h : sorted l with
    | nil =>
      have := (sorted_perm l).length_eq
      rw [h] at this
      exact absurd (List.eq_nil_of_length_eq_zero this.symm) hl
    | cons c cs => exact ⟨c, cs, rfl⟩
  unfold currentElements
  cases alg with
  | incremental =>
    obtain ⟨c, cs, h⟩ := hs (cur ++ prev) (by simp [hc])
    exact ⟨c, cs, by rw [h]⟩
  | «partial» g =>
    obtain ⟨kept, hk⟩ := filterE_total hg prev
    obtain ⟨c, cs, h⟩ := hs (kept ++ cur) (by simp [hc])
    exact ⟨c, cs, by simp only [hk, Except.bind_ok, h]; rfl⟩
  | _ =>
    cases cur with
    | nil => exact absurd rfl hc
    | cons c cs => exact ⟨c, cs, rfl⟩

/-- The user functions may do anything: a window yields exactly one output. -/
theorem C64_one_output_partial (hg : NoRaise alg) (f : Fns M S δ β) (initial : M) (shared : Bool) (w : Win δ) (hw : w.elements ≠ [])
    (st : St M S δ) : ∃ o st', (process alg f initial shared w).run st = .ok [o] st' := by
  rw [process_run]
  by_cases hts : w.ts < st.ts.getD (-1)
  · exact ⟨.outdated, st, if_pos hts⟩
  · rw [if_neg hts]
    have hne : sorted w.elements ≠ [] := by
      intro h
      have := (sorted_perm w.elements).length_eq
      rw [h] at this
      exact hw (List.eq_nil_of_length_eq_zero this.symm)
    obtain ⟨c, cs, hc⟩ := currentElements_total hg (st.elements.getD []) hne
    simp only [hc, resolveOutgoing_cons]
    unfold afterMap
    simp only
    cases (f.mapFn st.sampleset (c :: cs) (resolveIncoming (st.elements.getD []) (c :: cs))
        ((st.elements.getD []).takeWhile fun p => decide (p.ts < c.ts))).run (st.model.getD initial) with
    | error e changed => exact ⟨_, _, rfl⟩
    | ok model m' =>
      simp only
      have hatt : ∀ s : St M S δ, ∃ model2 s2, (attenuationStage alg model).run s = .ok model2 s2 := by
        intro s
        unfold attenuationStage
        cases alg with
        | attenuation step =>
          obtain ⟨m2, h2⟩ := hg model
          simp only [h2]
          exact ⟨_, _, rfl⟩
        | _ => exact ⟨_, _, rfl⟩
      obtain ⟨model2, s2, h2⟩ := hatt ⟨some w.ts, some (c :: cs), some model, st.sampleset, st.calls ++
        [.mapFn (st.model.getD initial) st.sampleset (c :: cs) (resolveIncoming (st.elements.getD []) (c :: cs))
          ((st.elements.getD []).takeWhile fun p => decide (p.ts < c.ts))]⟩
      rw [h2]
      simp only
      rw [solveStage_run]
      cases (f.solveFn st.sampleset (c :: cs) (resolveIncoming (st.elements.getD []) (c :: cs))
        ((st.elements.getD []).takeWhile fun p => decide (p.ts < c.ts))).run model2 with
      | error e m3 => exact ⟨_, _, rfl⟩
      | ok s m3 => exact ⟨_, _, rfl⟩

/-- Hence a run over any windows yields one output for each. -/
theorem C64_all_windows_partial (hg : NoRaise alg) (f : Fns M S δ β) (initial : M) (ws : List (Bool × Win δ))
    (hw : ∀ w ∈ ws, w.2.elements ≠ []) (st : St M S δ) :
    ∃ os st', (processAll alg f initial ws).run st = .ok os st' ∧ os.length = ws.length ∧ ∀ l ∈ os, l.length = 1 := by
  induction ws generalizing st with
  | nil => exact ⟨[], st, rfl, rfl, by simp⟩
  | cons w ws ih =>
    obtain ⟨o, st1, h1⟩ := C64_one_output_partial hg f initial w.1 w.2 (hw w (by simp)) st
    obtain ⟨os, st2, h2, h3, h4⟩ := ih (fun w' hw' => hw w' (by simp [hw'])) st1
    refine ⟨[o] :: os, st2, ?_, by simp [h3], ?_⟩
    · simp only [processAll, Py.run_bind, h1, h2, Py.run_pure]
    · intro l hl
      rcases List.mem_cons.mp hl with rfl | hl
      · rfl
      · exact h4 l hl

example : NoRaise (.«partial» fun x => .ok (decide (x.data < 5)) : Algorithm Nat Nat) := fun x => ⟨_, rfl⟩

/-! ## C65: stale windows -/

/-- A window older than the last processed one changes nothing and calls no user function. -/
theorem C65_stale {t : ℚ} {w : Win δ} (ht : st.ts = some t) (hw : w.ts < t) (shared : Bool) :
    (process alg f initial shared w).run st = .ok [.outdated] st := by
  rw [process_run, ht, Option.getD_some, if_pos hw]

/-- A window that is not older calls `map_fn` exactly once and becomes the last processed one. -/
theorem C65_not_stale {t : ℚ} {w : Win δ} (ht : st.ts = some t) (hw : t ≤ w.ts) {shared : Bool} {o : List (Output β)}
    (h : (process alg f initial shared w).run st = .ok o st') :
    st'.ts = some w.ts ∧ (mapArgs st'.calls).length = (mapArgs st.calls).length + 1 := by
  rw [process_run, ht, Option.getD_some, if_neg (not_lt.mpr hw)] at h
  cases hc : currentElements alg (st.elements.getD []) (sorted w.elements) with
  | error e => rw [hc] at h; cases h
  | ok els =>
    rw [hc] at h
    simp only at h
    cases ho : resolveOutgoing (st.elements.getD []) els with
    | error e => rw [ho] at h; cases h
    | ok out =>
      rw [ho] at h
      simp only at h
      obtain ⟨g1, _, g3⟩ := afterMap_state alg f initial shared st w.ts els (resolveIncoming (st.elements.getD []) els) out
      rw [h] at g1 g3
      exact ⟨g1, by simp only [Res.state] at g3; rw [g3]; simp⟩

theorem process_ts {t : ℚ} (ht : st.ts = some t) (shared : Bool) (w : Win δ) :
    ∃ t', ((process alg f initial shared w).run st).state.ts = some t' ∧ t ≤ t' := by
  rw [process_run, ht, Option.getD_some]
  by_cases hw : w.ts < t
  · rw [if_pos hw]; exact ⟨t, ht, le_refl _⟩
  · rw [if_neg hw]
    cases currentElements alg (st.elements.getD []) (sorted w.elements) with
    | error e => exact ⟨t, ht, le_refl _⟩
    | ok els =>
      simp only
      cases resolveOutgoing (st.elements.getD []) els with
      | error e => exact ⟨t, ht, le_refl _⟩
      | ok out => exact ⟨w.ts, (afterMap_state alg f initial shared st w.ts els _ out).1, not_lt.mp hw⟩

/-- The stored time never decreases, for windows in any order and also if something raises. -/
theorem C65_monotone {t : ℚ} (ht : st.ts = some t) (ws : List (Bool × Win δ)) :
    ∃ t', ((processAll alg f initial ws).run st).state.ts = some t' ∧ t ≤ t' := by
  induction ws generalizing st t with
  | nil => exact ⟨t, ht, le_refl _⟩
  | cons w ws ih =>
    obtain ⟨t1, h1, h2⟩ := process_ts (alg := alg) (f := f) (initial := initial) ht w.1 w.2
    simp only [processAll, Py.run_bind]
    cases hr : (process alg f initial w.1 w.2).run st with
    | error e s1 => rw [hr] at h1; exact ⟨t1, h1, h2⟩
    | ok o s1 =>
      rw [hr] at h1
      obtain ⟨t2, h3, h4⟩ := ih (st := s1) h1
      refine ⟨t2, ?_, le_trans h2 h4⟩
      simp only
      cases hr2 : (processAll alg f initial ws).run s1 with
      | error e s2 => rw [hr2] at h3; exact h3
      | ok os s2 => rw [hr2] at h3; exact h3

/-- Functions for the examples: the model lists the data seen as incoming, the result is their number. -/
def Ex.fns : Fns (List Nat) Nat Nat Nat where
  mapFn _ _ inc _ := do
    modify fun m => m ++ inc.map (·.data)
    if inc.any fun x => decide (x.data = 13) then throw .userError
    return ← get
  solveFn _ _ _ _ := do return (← get).length
  unmapFn s _ _ _ := .ok s

/-- The very first window is taken for outdated if its time is before -1 (one second before 1970). -/
theorem C65_first_refuted : (process .window Ex.fns [] false ⟨-2, [⟨-3, 0, 7⟩]⟩).run St.start = .ok [.outdated] St.start := by
  decide +kernel

example : ∃ o st', (process .window Ex.fns [] false ⟨2, [⟨1, 0, 7⟩, ⟨0, 1, 8⟩]⟩).run St.start = .ok o st' ∧
    decide (st'.ts = some 2 ∧ o = [.result 2] ∧ st'.model = some [8, 7]) = true :=
  Ex.exists_of_okAnd (by decide +kernel)

/-! ## C66: incoming and outgoing -/

section
variable [DecidableEq δ] {E : List (El δ)} {a b a' b' : ℚ} {u w : Win δ}

theorem Cut.mem (h : Cut E a b w) {x : El δ} : x ∈ sorted w.elements ↔ x ∈ E ∧ a ≤ x.ts ∧ x.ts < b := by
  rw [mem_sorted, h.perm.mem_iff, List.mem_filter]
  simp

theorem Cut.ne (h : Cut E a b w) : ∃ c cs, sorted w.elements = c :: cs := by
  cases hs : sorted w.elements with
  | nil =>
    have := (sorted_perm w.elements).length_eq
    rw [hs] at this
    exact absurd (List.eq_nil_of_length_eq_zero this.symm) h.nonempty
  | cons c cs => exact ⟨c, cs, rfl⟩

theorem cut_outgoing (hu : Cut E a b u) (hw : Cut E a' b' w) (ha : a ≤ a') (hb : b ≤ b') :
    resolveOutgoing (sorted u.elements) (sorted w.elements) =
      .ok ((sorted u.elements).filter fun x => decide (x ∉ sorted w.elements)) := by
  obtain ⟨c, cs, hc⟩ := Cut.ne hw
  have hcm : c ∈ sorted w.elements := by rw [hc]; simp
  rw [hc, outgoing_timed (sorted_timed _), ← hc]
  congr 1
  apply List.filter_congr
  intro x hx
  obtain ⟨h1, h2, h3⟩ := (Cut.mem hu).mp hx
  rw [decide_eq_decide, Cut.mem hw]
  constructor
  · intro hlt hmem
    have hts := sorted_timed w.elements
    rw [hc] at hts
    have hxc : x ∈ c :: cs := by rw [← hc]; exact (Cut.mem hw).mpr hmem
    rcases List.mem_cons.mp hxc with rfl | hx'
    · exact lt_irrefl _ hlt
    · exact absurd ((List.pairwise_cons.mp hts).1 x hx') (not_le.mpr hlt)
  · intro hn
    obtain ⟨_, hc2, _⟩ := (Cut.mem hw).mp hcm
    by_contra hge
    exact hn ⟨h1, le_trans hc2 (not_lt.mp hge), lt_of_lt_of_le h3 hb⟩

theorem cut_incoming (hu : Cut E a b u) (hw : Cut E a' b' w) (ha : a ≤ a') (hb : b ≤ b') :
    resolveIncoming (sorted u.elements) (sorted w.elements) =
      (sorted w.elements).filter fun x => decide (x ∉ sorted u.elements) := by
  obtain ⟨c, cs, hc⟩ := Cut.ne hu
  obtain ⟨last, hl⟩ : ∃ last, (sorted u.elements).getLast? = some last := by
    rw [hc]; exact ⟨_, List.getLast?_eq_some_getLast (by simp)⟩
  have hlm : last ∈ sorted u.elements := List.mem_of_getLast? hl
  rw [incoming_timed (sorted_timed _) hl]
  apply List.filter_congr
  intro x hx
  obtain ⟨h1, h2, h3⟩ := (Cut.mem hw).mp hx
  rw [decide_eq_decide]
  constructor
  · intro hlt hmem
    have hts := sorted_timed u.elements
    obtain ⟨ys, hys⟩ := List.getLast?_eq_some_iff.mp hl
    rw [hys] at hmem hts
    rcases List.mem_append.mp hmem with h | h
    · exact absurd ((List.pairwise_append.mp hts).2.2 x h last (by simp)) (not_le.mpr hlt)
    · rw [List.mem_singleton] at h
      subst h
      exact lt_irrefl _ hlt
  · intro hn
    by_contra hge
    obtain ⟨_, _, hl3⟩ := (Cut.mem hu).mp hlm
    exact hn ((Cut.mem hu).mpr ⟨h1, le_trans ha h2, lt_of_le_of_lt (not_lt.mp hge) hl3⟩)

/-- The elements of this window and the differences from the previous one. -/
def differences : List (El δ) → List (Win δ) → List (List (El δ) × List (El δ) × List (El δ))
  | _, [] => []
  | prev, w :: ws => (sorted w.elements, (sorted w.elements).filter (fun x => decide (x ∉ prev)),
      prev.filter fun x => decide (x ∉ w.elements)) :: differences (sorted w.elements) ws

/-- The algorithm does not combine the elements of several windows. -/
def Plain : Algorithm M δ → Prop
  | .window => True
  | .delta => True
  | .attenuation _ => True
  | _ => False

theorem plain_current (h : Plain alg) (prev cur : List (El δ)) : currentElements alg prev cur = .ok cur := by
  cases alg <;> first | rfl | exact absurd h id

theorem trace_plain (hp : Plain alg) {ws : List (Win δ)} (hu : Cut E a b u) (h : Sliding E a b ws) :
    trace alg (sorted u.elements) ws = .ok (differences (sorted u.elements) ws) := by
  induction ws generalizing u a b with
  | nil => rfl
  | cons w ws ih =>
    obtain ⟨a', b', ha, hb, hw, hrest⟩ := h
    unfold trace
    rw [plain_current hp, Except.bind_ok, cut_outgoing hu hw ha hb, Except.bind_ok, ih hw hrest, Except.bind_ok,
      cut_incoming hu hw ha hb]
    simp only [differences, mem_sorted]
    rfl

theorem trace_plain_start (hp : Plain alg) {ws : List (Win δ)} (h : Sliding E a b ws) :
    trace alg [] ws = .ok (differences [] ws) := by
  cases ws with
  | nil => rfl
  | cons w ws =>
    obtain ⟨a', b', _, _, hw, hrest⟩ := h
    unfold trace
    rw [plain_current hp, Except.bind_ok]
    unfold differences
    rw [trace_plain hp hw hrest]
    simp [resolveOutgoing, resolveIncoming]
    rfl

/-- **C66**: `map_fn` gets each window, sorted, with the exact differences from the window before. -/
theorem C66_differences (hp : Plain alg) {ws : List (Bool × Win δ)} (hs : Sliding E a b (ws.map (·.2)))
    (ho : InOrder (-1) (ws.map (·.2))) {os : List (List (Output β))}
    (h : (processAll alg f initial ws).run St.start = .ok os st') :
    mapArgs st'.calls = differences [] (ws.map (·.2)) := by
  obtain ⟨tr, h1, h2⟩ := processAll_trace (st := St.start) ho h
  rw [show (St.start : St M S δ).elements.getD [] = [] from rfl, trace_plain_start hp hs] at h1
  cases h1
  rw [h2]
  rfl

theorem replay_differences {ws : List (Win δ)} (hu : Cut E a b u) (h : Sliding E a b ws) {c : List (El δ)}
    (hc : c.Perm (sorted u.elements)) :
    (replay ((differences (sorted u.elements) ws).map (·.2)) c).Perm (((u :: ws).getLast (by simp)).elements) := by
  induction ws generalizing u a b c with
  | nil => exact hc.trans (sorted_perm _)
  | cons w ws ih =>
    obtain ⟨a', b', ha, hb, hw, hrest⟩ := h
    rw [List.getLast_cons (by simp)]
    simp only [differences, List.map_cons, replay, List.foldl_cons]
    apply ih hw hrest
    -- what is kept are the elements in both windows
    have hcommon : (c.filter fun x => decide (x ∉ (sorted u.elements).filter fun x => decide (x ∉ w.elements))).Perm
        ((sorted w.elements).filter fun x => decide (x ∈ sorted u.elements)) := by
      have e1 : (c.filter fun x => decide (x ∉ (sorted u.elements).filter fun x => decide (x ∉ w.elements))) =
          c.filter fun x => decide (a' ≤ x.ts) && decide (x.ts < b') := by
        apply List.filter_congr
        intro x hx
        have hxu := hc.mem_iff.mp hx
        have hxE := ((Cut.mem hu).mp hxu).1
        have hxw := Cut.mem hw (x := x)
        rw [mem_sorted] at hxw
        simp only [List.mem_filter, hxu, true_and, decide_eq_true_eq, not_not]
        rw [← Bool.decide_and, decide_eq_decide]
        exact hxw.trans (and_iff_right hxE)
      have e2 : ((sorted w.elements).filter fun x => decide (x ∈ sorted u.elements)) =
          (sorted w.elements).filter fun x => decide (a ≤ x.ts) && decide (x.ts < b) := by
        apply List.filter_congr
        intro x hx
        have hxE := ((Cut.mem hw).mp hx).1
        rw [← Bool.decide_and, decide_eq_decide]
        exact (Cut.mem hu (x := x)).trans (and_iff_right hxE)
      rw [e1, e2]
      have p1 : (c.filter fun x => decide (a' ≤ x.ts) && decide (x.ts < b')).Perm
          ((E.filter fun x => decide (a ≤ x.ts) && decide (x.ts < b)).filter fun x => decide (a' ≤ x.ts) && decide (x.ts < b')) :=
        ((hc.trans (sorted_perm _)).trans hu.perm).filter _
      have p2 : ((sorted w.elements).filter fun x => decide (a ≤ x.ts) && decide (x.ts < b)).Perm
          ((E.filter fun x => decide (a' ≤ x.ts) && decide (x.ts < b')).filter fun x => decide (a ≤ x.ts) && decide (x.ts < b)) :=
        ((sorted_perm _).trans hw.perm).filter _
      refine p1.trans (List.Perm.trans ?_ p2.symm)
      rw [List.filter_filter, List.filter_filter]
      refine List.Perm.of_eq (List.filter_congr fun x _ => ?_)
      rw [Bool.and_comm]
    refine (hcommon.append_right _).trans ?_
    have := List.filter_append_perm (fun x => decide (x ∈ sorted u.elements)) (sorted w.elements)
    simpa using this

/-- **C66**, replay: dropping the outgoing and adding the incoming elements from the start gives the last window. -/
theorem C66_replay (hp : Plain alg) {w : Bool × Win δ} {ws : List (Bool × Win δ)} (hs : Sliding E a b ((w :: ws).map (·.2)))
    (ho : InOrder (-1) ((w :: ws).map (·.2))) {os : List (List (Output β))}
    (h : (processAll alg f initial (w :: ws)).run St.start = .ok os st') :
    (replay ((mapArgs st'.calls).map (·.2)) []).Perm (((w :: ws).getLast (by simp)).2.elements) := by
  rw [C66_differences hp hs ho h]
  obtain ⟨a', b', _, _, hw, hrest⟩ := hs
  simp only [List.map_cons, differences, replay, List.foldl_cons, List.filter_nil, List.nil_append, List.not_mem_nil,
    not_false_eq_true, decide_true, List.filter_true]
  have := replay_differences hw hrest (List.Perm.refl _)
  refine this.trans (List.Perm.of_eq ?_)
  have : (w.2 :: ws.map (·.2)) = (w :: ws).map (·.2) := rfl
  simp only [this, List.getLast_map]

/-- Windows of a fixed size, every period, are such windows: sliding windows, and fixed ones for `size = period`. -/
theorem C66_sliding {period size : ℚ} (hp : 0 ≤ period) {ks : List Nat} (hk : ks.Pairwise (· ≤ ·)) {ws : List (Win δ)}
    (hl : ws.length = ks.length)
    (hc : ∀ (i k : Nat) w, ks[i]? = some k → ws[i]? = some w → Cut E (k * period) (k * period + size) w) :
    Sliding E 0 size ws := by
  have key : ∀ (ks : List Nat) (ws : List (Win δ)) (k0 : Nat), (∀ k ∈ ks, k0 ≤ k) → ks.Pairwise (· ≤ ·) → ws.length = ks.length →
      (∀ (i k : Nat) w, ks[i]? = some k → ws[i]? = some w → Cut E (k * period) (k * period + size) w) →
      Sliding E (k0 * period) (k0 * period + size) ws := by
    intro ks
    induction ks with
    | nil => intro ws k0 _ _ hl _; rw [List.eq_nil_of_length_eq_zero hl]; trivial
    | cons k ks ih =>
      intro ws k0 h0 hk hl hc
      cases ws with
      | nil => cases hl
      | cons w ws =>
        rw [List.pairwise_cons] at hk
        have hle : (k0 : ℚ) * period ≤ k * period :=
          mul_le_mul_of_nonneg_right (by exact_mod_cast h0 k (by simp)) hp
        refine ⟨_, _, hle, by linarith, hc 0 k w rfl rfl, ih ws k hk.1 hk.2 (by simpa using hl) fun i k' w' h1 h2 =>
          hc (i + 1) k' w' h1 h2⟩
  have := key ks ws 0 (by simp) hk hl hc
  simpa using this

end

example : Sliding [⟨0, 0, 7⟩, ⟨1, 1, 8⟩, ⟨2, 2, 9⟩] 0 2 [⟨2, [⟨1, 1, 8⟩, ⟨0, 0, 7⟩]⟩, ⟨3, [⟨1, 1, 8⟩, ⟨2, 2, (9 : Nat)⟩]⟩] ∧
    ∃ os st', (processAll .window Ex.fns [] [(false, ⟨2, [⟨1, 1, 8⟩, ⟨0, 0, 7⟩]⟩), (false, ⟨3, [⟨1, 1, 8⟩, ⟨2, 2, 9⟩]⟩)]).run St.start = .ok os st' ∧
      decide (mapArgs st'.calls = [([⟨0, 0, 7⟩, ⟨1, 1, 8⟩], [⟨0, 0, 7⟩, ⟨1, 1, 8⟩], []),
        ([⟨1, 1, 8⟩, ⟨2, 2, 9⟩], [⟨2, 2, 9⟩], [⟨0, 0, 7⟩])]) = true := by
  refine ⟨⟨0, 2, by decide +kernel, by decide +kernel, ⟨?_, by decide⟩, 1, 3, by decide +kernel, by decide +kernel, ⟨?_, by decide⟩, trivial⟩,
    Ex.exists_of_okAnd (by decide +kernel)⟩
  · exact List.isPerm_iff.mp (by decide +kernel)
  · exact List.isPerm_iff.mp (by decide +kernel)

/-! ## C67: incremental -/

theorem incremental_trace {ws : List (Win δ)} {prev seen : List (El δ)} (hp : prev.Perm seen) (ht : Timed prev)
    {tr : List (List (El δ) × List (El δ) × List (El δ))} (h : trace (.incremental : Algorithm M δ) prev ws = .ok tr) :
    tr.length = ws.length ∧ ∀ (k : Nat) t w, tr[k]? = some t → ws[k]? = some w →
      t.1.Perm (seen ++ (ws.take (k + 1)).flatMap (·.elements)) ∧ Timed t.1 ∧ t.2.2 = [] ∧
      t.2.1.Perm (w.elements.filter fun y => decide (∀ x ∈ seen ++ (ws.take k).flatMap (·.elements), x.ts < y.ts)) ∧
      Timed t.2.1 := by
  induction ws generalizing prev seen tr with
  | nil => cases h; exact ⟨rfl, by simp⟩
  | cons w ws ih =>
    unfold trace at h
    simp only [currentElements, Except.bind_ok] at h
    obtain ⟨out, hout, h⟩ := bind_eq_ok.mp h
    obtain ⟨rest, hrest, h⟩ := bind_eq_ok.mp h
    cases h
    have hels : (sorted (sorted w.elements ++ prev)).Perm (seen ++ w.elements) :=
      (sorted_perm _).trans (((sorted_perm _).append hp).trans List.perm_append_comm)
    obtain ⟨g1, g2⟩ := ih hels (sorted_timed _) hrest
    refine ⟨by simp [g1], fun k t w' ht' hw' => ?_⟩
    cases k with
    | zero =>
      simp only [List.getElem?_cons_zero, Option.some.injEq] at ht' hw'
      subst ht' hw'
      refine ⟨by simpa using hels, sorted_timed _, ?_, ?_⟩
      · -- the first element is not after any previous one
        cases hs : sorted (sorted w.elements ++ prev) with
        | nil =>
          have := (sorted_perm (sorted w.elements ++ prev)).length_eq
          rw [hs] at this hout
          have hp0 : prev = [] := List.eq_nil_of_length_eq_zero (by simp at this; omega)
          rw [hp0] at hout
          cases hout; rfl
        | cons c cs =>
          rw [hs, resolveOutgoing_cons] at hout
          cases hout
          have hmin : ∀ x ∈ prev, c.ts ≤ x.ts := by
            intro x hx
            have hm : x ∈ sorted (sorted w.elements ++ prev) := mem_sorted.mpr (List.mem_append_right _ hx)
            have hts := sorted_timed (sorted w.elements ++ prev)
            rw [hs] at hm hts
            rcases List.mem_cons.mp hm with rfl | hm
            · exact le_refl _
            · exact (List.pairwise_cons.mp hts).1 x hm
          cases prev with
          | nil => rfl
          | cons p ps =>
            rw [List.takeWhile_cons, if_neg]
            simpa using hmin p (by simp)
      · simp only [List.take_zero, List.flatMap_nil, List.append_nil]
        cases hl : prev.getLast? with
        | none =>
          rw [List.getLast?_eq_none_iff] at hl
          subst hl
          have : seen = [] := hp.symm.eq_nil
          subst this
          simp only [incoming_nil, List.not_mem_nil, false_imp_iff, implies_true, decide_true, List.filter_true]
          refine ⟨(sorted_perm _).trans ?_, sorted_timed _⟩
          simpa using sorted_perm w.elements
        | some last =>
          rw [incoming_timed (sorted_timed _) hl]
          refine ⟨?_, List.Pairwise.filter _ (sorted_timed _)⟩
          have hlm : last ∈ seen := hp.mem_iff.mp (List.mem_of_getLast? hl)
          have hlast : ∀ x ∈ prev, x.ts ≤ last.ts := by
            intro x hx
            obtain ⟨ys, hys⟩ := List.getLast?_eq_some_iff.mp hl
            rw [hys] at hx ht
            rcases List.mem_append.mp hx with h | h
            · exact (List.pairwise_append.mp ht).2.2 x h last (by simp)
            · rw [List.mem_singleton] at h; subst h; exact le_refl _
          have e0 : (fun v : El δ => decide (last.ts < v.ts)) = fun v => decide (∀ x ∈ seen, x.ts < v.ts) := by
            funext v
            rw [decide_eq_decide]
            exact ⟨fun h x hx => lt_of_le_of_lt (hlast x (hp.mem_iff.mpr hx)) h, fun h => h last hlm⟩
          refine (((sorted_perm _).filter _)).trans ?_
          rw [List.filter_append]
          have e2 : (prev.filter fun v => decide (last.ts < v.ts)) = [] := by
            rw [List.filter_eq_nil_iff]
            intro x hx
            simpa using hlast x hx
          rw [e2, List.append_nil, e0]
          exact (sorted_perm _).filter _
    | succ k =>
      simp only [List.getElem?_cons_succ] at ht' hw'
      obtain ⟨q1, q2, q3, q4⟩ := g2 k t w' ht' hw'
      obtain ⟨q4, q5⟩ := q4
      refine ⟨?_, q2, q3, ?_, q5⟩
      · simpa [List.take_succ_cons, List.flatMap_cons, List.append_assoc] using q1
      · simpa only [List.take_succ_cons, List.flatMap_cons, List.append_assoc] using q4

/-- **C67** exactly: `map_fn` gets all elements so far in the order of time, nothing is outgoing, and incoming are those
elements of the window that are later than all before. -/
theorem C67_exact {ws : List (Bool × Win δ)} (ho : InOrder (-1) (ws.map (·.2))) {os : List (List (Output β))}
    (h : (processAll .incremental f initial ws).run St.start = .ok os st') :
    (mapArgs st'.calls).length = ws.length ∧ ∀ (k : Nat) t w, (mapArgs st'.calls)[k]? = some t → (ws.map (·.2))[k]? = some w →
      t.1.Perm (((ws.map (·.2)).take (k + 1)).flatMap (·.elements)) ∧ Timed t.1 ∧ t.2.2 = [] ∧
      t.2.1.Perm (w.elements.filter fun y => decide (∀ x ∈ ((ws.map (·.2)).take k).flatMap (·.elements), x.ts < y.ts)) ∧
      Timed t.2.1 := by
  obtain ⟨tr, h1, h2⟩ := processAll_trace (st := St.start) ho h
  have h3 : mapArgs st'.calls = tr := by rw [h2]; rfl
  obtain ⟨g1, g2⟩ := incremental_trace (List.Perm.refl []) List.Pairwise.nil h1
  rw [h3]
  refine ⟨by simpa using g1, fun k t w ht hw => ?_⟩
  simpa only [List.nil_append] using g2 k t w ht hw

/-- **C67**: so for a window that is later than all before, incoming are exactly its elements. -/
theorem C67_incremental {ws : List (Bool × Win δ)} (ho : InOrder (-1) (ws.map (·.2))) {os : List (List (Output β))}
    (h : (processAll .incremental f initial ws).run St.start = .ok os st') :
    (mapArgs st'.calls).length = ws.length ∧ ∀ (k : Nat) t w, (mapArgs st'.calls)[k]? = some t → (ws.map (·.2))[k]? = some w →
      t.1.Perm (((ws.map (·.2)).take (k + 1)).flatMap (·.elements)) ∧ Timed t.1 ∧ t.2.2 = [] ∧
      ((∀ x ∈ ((ws.map (·.2)).take k).flatMap (·.elements), ∀ y ∈ w.elements, x.ts < y.ts) →
        t.2.1.Perm w.elements ∧ Timed t.2.1) := by
  obtain ⟨h1, h2⟩ := C67_exact ho h
  refine ⟨h1, fun k t w ht hw => ?_⟩
  obtain ⟨g1, g2, g3, g4, g5⟩ := h2 k t w ht hw
  refine ⟨g1, g2, g3, fun hl => ⟨?_, g5⟩⟩
  rwa [List.filter_eq_self.mpr fun y hy => decide_eq_true fun x hx => hl x hx y hy] at g4

/-- A late element is among the elements but is never incoming. -/
theorem C67_late_refuted :
    ∃ os st', (processAll .incremental Ex.fns [] [(false, ⟨2, [⟨1, 0, 7⟩]⟩), (false, ⟨2, [⟨0, 1, 8⟩]⟩)]).run St.start = .ok os st' ∧
      decide (mapArgs st'.calls = [([⟨1, 0, 7⟩], [⟨1, 0, 7⟩], []), ([⟨0, 1, 8⟩, ⟨1, 0, 7⟩], [], [])]) = true :=
  Ex.exists_of_okAnd (by decide +kernel)

example : ∃ os st', (processAll .incremental Ex.fns [] [(false, ⟨2, [⟨1, 0, 7⟩]⟩), (false, ⟨4, [⟨3, 1, 8⟩]⟩)]).run St.start = .ok os st' ∧
      decide (mapArgs st'.calls = [([⟨1, 0, 7⟩], [⟨1, 0, 7⟩], []), ([⟨1, 0, 7⟩, ⟨3, 1, 8⟩], [⟨3, 1, 8⟩], [])]) = true :=
  Ex.exists_of_okAnd (by decide +kernel)

/-! ## C71: the order of arrival -/

/-- **C71**: the arrival order does not matter: with the same elements in another order everything is the same. -/
theorem C71_arrival_order {ts : ℚ} {l l' : List (El δ)} (hd : Distinct l) (hp : l.Perm l') (shared : Bool) :
    (process alg f initial shared ⟨ts, l⟩).run st = (process alg f initial shared ⟨ts, l'⟩).run st := by
  rw [process_run, process_run, sorted_congr hd hp]

theorem currentElements_sorted {prev cur els : List (El δ)} (hc : cur.Pairwise fun a b => El.le a b = true)
    (h : currentElements alg prev cur = .ok els) : els.Pairwise fun a b => El.le a b = true := by
  unfold currentElements at h
  cases alg with
  | incremental => cases h; exact sorted_pairwise _
  | «partial» g =>
    obtain ⟨kept, _, h⟩ := bind_eq_ok.mp h
    cases h; exact sorted_pairwise _
  | _ => cases h; exact hc

theorem trace_sorted {ws : List (Win δ)} {prev : List (El δ)} {tr : List (List (El δ) × List (El δ) × List (El δ))}
    (h : trace alg prev ws = .ok tr) : ∀ t ∈ tr, t.1.Pairwise fun a b => a.ts < b.ts ∨ (a.ts = b.ts ∧ a.idx ≤ b.idx) := by
  induction ws generalizing prev tr with
  | nil => cases h; simp
  | cons w ws ih =>
    unfold trace at h
    obtain ⟨els, he, h⟩ := bind_eq_ok.mp h
    obtain ⟨out, _, h⟩ := bind_eq_ok.mp h
    obtain ⟨rest, hrest, h⟩ := bind_eq_ok.mp h
    cases h
    intro t ht
    rcases List.mem_cons.mp ht with rfl | ht
    · exact (currentElements_sorted (sorted_pairwise _) he).imp fun {a b} hab => El.le_iff.mp hab
    · exact ih hrest t ht

/-- **C71**: `map_fn` always gets the elements in the order of time and index, for every algorithm. -/
theorem C71_sorted {ws : List (Bool × Win δ)} (ho : InOrder (-1) (ws.map (·.2))) {os : List (List (Output β))}
    (h : (processAll alg f initial ws).run St.start = .ok os st') :
    ∀ t ∈ mapArgs st'.calls, t.1.Pairwise fun a b => a.ts < b.ts ∨ (a.ts = b.ts ∧ a.idx ≤ b.idx) := by
  obtain ⟨tr, h1, h2⟩ := processAll_trace (st := St.start) ho h
  have h3 : mapArgs st'.calls = tr := by rw [h2]; rfl
  rw [h3]
  exact trace_sorted h1

example : Distinct [⟨1, 0, 7⟩, ⟨1, 1, 7⟩, ⟨0, 2, (5 : Nat)⟩] := by
  unfold Distinct
  decide +kernel

/-! ## C74: indices -/

/-- **C74**: the elements get the indices `n, n+1, ...` in their order, and the next free index is stored. -/
theorem C74_indices (vs : List δ) (n : Nat) :
    ∃ out, (assignIndices vs).run n = .ok out (n + vs.length) ∧ out.map (·.2) = vs ∧ out.map (·.1) = List.range' n vs.length := by
  induction vs generalizing n with
  | nil => exact ⟨[], rfl, rfl, rfl⟩
  | cons v vs ih =>
    obtain ⟨out, h1, h2, h3⟩ := ih (n + 1)
    refine ⟨(n, v) :: out, ?_, by simp [h2], by simp [h3, List.range'_succ]⟩
    simp only [assignIndices, assignIndex, Py.run_bind, Py.run_get, Py.run_modify, Py.run_pure, h1]
    simp only [List.length_cons, List.singleton_append]
    congr 1
    omega

/-- From the start the indices are `0, 1, 2, ...`, so none occurs twice. -/
theorem C74_unique {vs : List δ} {out : List (Nat × δ)} {n : Nat} (h : (assignIndices vs).run 0 = .ok out n) :
    n = vs.length ∧ (out.map (·.1)).Nodup ∧ ∀ i, i ∈ out.map (·.1) ↔ i < vs.length := by
  obtain ⟨out', h1, _, h3⟩ := C74_indices vs 0
  rw [h1] at h
  cases h
  rw [h3]
  refine ⟨by omega, List.nodup_range', fun i => ?_⟩
  rw [List.mem_range'_1]
  omega

example : (assignIndices ["a", "b"]).run 0 = .ok [(0, "a"), (1, "b")] 2 := rfl

end Sawatabi.Props
