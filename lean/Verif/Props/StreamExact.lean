import Verif.Props.StreamState

/-!
# C64, C65, C66, C68 exactly: when a window raises, is ignored, and what is incoming and outgoing

The theorems of `Stream.lean` and `StreamState.lean` have hypotheses on the windows. Here the same is said for every window
in every state.
-/

namespace Sawatabi.Props

open Stream

variable {M S δ β : Type} {alg : Algorithm M δ} {f : Fns M S δ β} {initial : M} {st st' : St M S δ}

/-! ## C64 -/

/-- A filter function raises on one of the elements. -/
def FilterRaises (alg : Algorithm M δ) (prev : List (El δ)) : Prop :=
  ∃ g, alg = .«partial» g ∧ ∃ x ∈ prev, ∃ e, g x = .error e

/-- No element is left although there were some before: the window is empty, and nothing before is taken over. -/
def Emptied (alg : Algorithm M δ) (prev cur : List (El δ)) : Prop :=
  prev ≠ [] ∧ cur = [] ∧ alg ≠ .incremental ∧ ∀ g, alg = .«partial» g → ∀ x ∈ prev, g x = .ok false

/-- The attenuation step raises on the model. -/
def StepRaises (alg : Algorithm M δ) (model : M) : Prop :=
  ∃ step, alg = .attenuation step ∧ ∃ e m, step.run model = .error e m

theorem filterE_error {g : El δ → Except Err Bool} {l : List (El δ)} :
    (∃ e, filterE g l = .error e) ↔ ∃ x ∈ l, ∃ e, g x = .error e := by
  induction l with
  | nil => simp [filterE]
  | cons a l ih =>
    unfold filterE
    cases ha : g a with
    | error e => exact ⟨fun _ => ⟨a, by simp, e, ha⟩, fun _ => ⟨e, rfl⟩⟩
    | ok b =>
      rw [Except.bind_ok]
      cases hr : filterE g l with
      | error e =>
        obtain ⟨x, hx, e', he⟩ := ih.mp ⟨e, hr⟩
        exact ⟨fun _ => ⟨x, by simp [hx], e', he⟩, fun _ => ⟨e, rfl⟩⟩
      | ok r =>
        have hn : ¬ ∃ x ∈ l, ∃ e, g x = .error e := fun h => by
          obtain ⟨e, he⟩ := ih.mpr h
          rw [hr] at he; cases he
        constructor
        · rintro ⟨e, he⟩; cases he
        · rintro ⟨x, hx, e, he⟩
          rcases List.mem_cons.mp hx with rfl | hx
          · rw [ha] at he; cases he
          · exact absurd ⟨x, hx, e, he⟩ hn

theorem filterE_nil {g : El δ → Except Err Bool} {l : List (El δ)} : filterE g l = .ok [] ↔ ∀ x ∈ l, g x = .ok false := by
  induction l with
  | nil => simp [filterE]
  | cons a l ih =>
    unfold filterE
    cases ha : g a with
    | error e =>
      refine ⟨fun h => (by cases h), fun h => ?_⟩
      have := h a (by simp)
      rw [ha] at this; cases this
    | ok b =>
      rw [Except.bind_ok]
      cases hr : filterE g l with
      | error e =>
        refine ⟨fun h => (by cases h), fun h => ?_⟩
        have := ih.mpr fun x hx => h x (by simp [hx])
        rw [hr] at this; cases this
      | ok r =>
        rw [Except.bind_ok]
        constructor
        · intro h
          have h := Except.ok.inj h
          cases b with
          | true => cases h
          | false =>
            simp only [Bool.false_eq_true, if_false] at h
            intro x hx
            rcases List.mem_cons.mp hx with rfl | hx
            · exact ha
            · exact ih.mp (by rw [hr, h]) x hx
        · intro h
          have h1 := h a (by simp)
          rw [ha] at h1
          cases h1
          have h2 := ih.mpr fun x hx => h x (by simp [hx])
          rw [hr] at h2
          cases h2
          rfl

theorem sorted_eq_nil {l : List (El δ)} : sorted l = [] ↔ l = [] := by
  rw [← List.length_eq_zero_iff, (sorted_perm l).length_eq, List.length_eq_zero_iff]

theorem currentElements_error {prev cur : List (El δ)} :
    (∃ e, currentElements alg prev cur = .error e) ↔ FilterRaises alg prev := by
  unfold currentElements FilterRaises
  cases alg with
  | «partial» g =>
    have : (∃ g', (Algorithm.«partial» g : Algorithm M δ) = .«partial» g' ∧ ∃ x ∈ prev, ∃ e, g' x = .error e) ↔
        ∃ x ∈ prev, ∃ e, g x = .error e :=
      ⟨fun ⟨g', h, h'⟩ => (by cases h; exact h'), fun h => ⟨g, rfl, h⟩⟩
    rw [this, ← filterE_error]
    simp only
    cases filterE g prev with
    | error e => exact ⟨fun _ => ⟨e, rfl⟩, fun _ => ⟨e, rfl⟩⟩
    | ok r => exact ⟨fun ⟨e, he⟩ => (by cases he), fun ⟨e, he⟩ => (by cases he)⟩
  | _ => exact ⟨fun ⟨e, he⟩ => (by cases he), fun ⟨g, h, _⟩ => (by cases h)⟩

theorem resolveOutgoing_error {prev els : List (El δ)} :
    (∃ e, resolveOutgoing prev els = .error e) ↔ prev ≠ [] ∧ els = [] := by
  cases els with
  | nil =>
    cases prev with
    | nil => exact ⟨fun ⟨e, h⟩ => (by cases h), fun h => absurd rfl h.1⟩
    | cons p ps => exact ⟨fun _ => ⟨by simp, rfl⟩, fun _ => ⟨_, rfl⟩⟩
  | cons c cs =>
    rw [resolveOutgoing_cons]
    exact ⟨fun ⟨e, h⟩ => (by cases h), fun h => (by cases h.2)⟩

theorem currentElements_nil {prev cur : List (El δ)} :
    prev ≠ [] ∧ currentElements alg prev cur = .ok [] ↔ Emptied alg prev cur := by
  unfold currentElements Emptied
  cases alg with
  | incremental =>
    simp only [Except.ok.injEq, sorted_eq_nil, List.append_eq_nil_iff]
    exact ⟨fun h => absurd h.2.2 h.1, fun h => absurd rfl h.2.2.1⟩
  | «partial» g =>
    simp only
    have e1 : (∀ g', (Algorithm.«partial» g : Algorithm M δ) = .«partial» g' → ∀ x ∈ prev, g' x = .ok false) ↔
        filterE g prev = .ok [] := by
      rw [filterE_nil]
      exact ⟨fun h => h g rfl, fun h g' e => by cases e; exact h⟩
    rw [e1]
    cases hr : filterE g prev with
    | error e => exact ⟨fun h => (by cases h.2), fun h => (by cases h.2.2.2)⟩
    | ok r =>
      rw [Except.bind_ok, Except.pure_ok, Except.ok.injEq, Except.ok.injEq, sorted_eq_nil, List.append_eq_nil_iff]
      exact ⟨fun h => ⟨h.1, h.2.2, by simp, h.2.1⟩, fun h => ⟨h.1, h.2.2.2, h.2.1⟩⟩
  | _ =>
    simp only [Except.ok.injEq]
    exact ⟨fun h => ⟨h.1, h.2, by simp, fun g e => (by cases e)⟩, fun h => ⟨h.1, h.2.1⟩⟩

theorem attenuationStage_error {model : M} {s : St M S δ} :
    (∃ e s', (attenuationStage alg model).run s = .error e s') ↔ StepRaises alg model := by
  unfold attenuationStage StepRaises
  cases alg with
  | attenuation step =>
    simp only
    constructor
    · rintro ⟨e, s', h⟩
      cases hr : step.run model with
      | error e m => exact ⟨step, rfl, e, m, hr⟩
      | ok u m => rw [hr] at h; cases h
    · rintro ⟨step', h, e, m, hr⟩
      cases h
      rw [hr]
      exact ⟨e, _, rfl⟩
  | _ => exact ⟨fun ⟨e, s', h⟩ => (by cases h), fun ⟨_, h, _⟩ => (by cases h)⟩

theorem afterMap_error {shared : Bool} {t : ℚ} {els inc out : List (El δ)} :
    (∃ e s', afterMap alg f initial shared st t els inc out = .error e s') ↔
      ∃ model m', (f.mapFn st.sampleset els inc out).run (st.model.getD initial) = .ok model m' ∧ StepRaises alg model := by
  unfold afterMap
  simp only
  cases hm : (f.mapFn st.sampleset els inc out).run (st.model.getD initial) with
  | error e changed => exact ⟨fun ⟨_, _, h⟩ => (by cases h), fun ⟨_, _, h, _⟩ => (by cases h)⟩
  | ok model m' =>
    simp only
    have key := attenuationStage_error (alg := alg) (model := model) (s := (⟨some t, some els, some model, st.sampleset,
      st.calls ++ [.mapFn (st.model.getD initial) st.sampleset els inc out]⟩ : St M S δ))
    cases ha : (attenuationStage alg model).run (⟨some t, some els, some model, st.sampleset,
        st.calls ++ [.mapFn (st.model.getD initial) st.sampleset els inc out]⟩ : St M S δ) with
    | error e s2 =>
      rw [ha] at key
      exact ⟨fun _ => ⟨model, m', rfl, key.mp ⟨_, _, rfl⟩⟩, fun _ => ⟨_, _, rfl⟩⟩
    | ok model2 s2 =>
      rw [ha] at key
      simp only [solveStage_run]
      constructor
      · rintro ⟨e, s', h⟩
        cases hs : (f.solveFn st.sampleset els inc out).run model2 with
        | error e m3 => rw [hs] at h; cases h
        | ok s m3 => rw [hs] at h; cases h
      · rintro ⟨model', m'', h, hr⟩
        cases h
        obtain ⟨_, _, h⟩ := key.mpr hr
        cases h

theorem afterMap_one {shared : Bool} {t : ℚ} {els inc out : List (El δ)} {os : List (Output β)}
    (h : afterMap alg f initial shared st t els inc out = .ok os st') : ∃ o, os = [o] ∧ o ≠ .outdated := by
  unfold afterMap at h
  simp only at h
  cases hm : (f.mapFn st.sampleset els inc out).run (st.model.getD initial) with
  | error e changed => rw [hm] at h; cases h; exact ⟨_, rfl, by simp⟩
  | ok model m' =>
    rw [hm] at h
    simp only at h
    cases ha : (attenuationStage alg model).run (⟨some t, some els, some model, st.sampleset,
        st.calls ++ [.mapFn (st.model.getD initial) st.sampleset els inc out]⟩ : St M S δ) with
    | error e s2 => rw [ha] at h; cases h
    | ok model2 s2 =>
      rw [ha] at h
      simp only [solveStage_run] at h
      cases hs : (f.solveFn st.sampleset els inc out).run model2 with
      | error e m3 => rw [hs] at h; cases h; exact ⟨_, rfl, by simp⟩
      | ok s m3 =>
        rw [hs] at h
        cases h
        refine ⟨_, rfl, ?_⟩
        cases f.unmapFn s els inc out <;> simp

/-- **C64** for every window in every state: if nothing is raised there is exactly one output. -/
theorem C64_one {shared : Bool} {w : Win δ} {os : List (Output β)}
    (h : (process alg f initial shared w).run st = .ok os st') : ∃ o, os = [o] := by
  rw [process_run] at h
  by_cases hts : w.ts < st.ts.getD (-1)
  · rw [if_pos hts] at h; cases h; exact ⟨_, rfl⟩
  · rw [if_neg hts] at h
    cases hc : currentElements alg (st.elements.getD []) (sorted w.elements) with
    | error e => rw [hc] at h; cases h
    | ok els =>
      rw [hc] at h
      simp only at h
      cases ho : resolveOutgoing (st.elements.getD []) els with
      | error e => rw [ho] at h; cases h
      | ok out =>
        rw [ho] at h
        obtain ⟨o, h1, _⟩ := afterMap_one h
        exact ⟨o, h1⟩

/-- **C64**, when an exception escapes: for a window that is not ignored, exactly if the filter function raises, or no element
is left, or the attenuation step raises on the model of `map_fn`. What `map_fn`, `solve_fn` and `unmap_fn` raise never escapes. -/
theorem C64_escapes_exact {shared : Bool} {w : Win δ} :
    (∃ e s', (process alg f initial shared w).run st = .error e s') ↔ st.ts.getD (-1) ≤ w.ts ∧
      (FilterRaises alg (st.elements.getD []) ∨ Emptied alg (st.elements.getD []) w.elements ∨
        ∃ els out, currentElements alg (st.elements.getD []) (sorted w.elements) = .ok els ∧
          resolveOutgoing (st.elements.getD []) els = .ok out ∧ ∃ model m',
            (f.mapFn st.sampleset els (resolveIncoming (st.elements.getD []) els) out).run (st.model.getD initial) = .ok model m' ∧
              StepRaises alg model) := by
  rw [process_run, ← currentElements_error (cur := sorted w.elements)]
  have hemp : Emptied alg (st.elements.getD []) w.elements ↔ Emptied alg (st.elements.getD []) (sorted w.elements) := by
    unfold Emptied; rw [sorted_eq_nil]
  rw [hemp, ← currentElements_nil]
  by_cases hts : w.ts < st.ts.getD (-1)
  · rw [if_pos hts]
    exact ⟨fun ⟨_, _, h⟩ => (by cases h), fun h => absurd h.1 (not_le.mpr hts)⟩
  · rw [if_neg hts]
    cases hc : currentElements alg (st.elements.getD []) (sorted w.elements) with
    | error e => exact ⟨fun _ => ⟨not_lt.mp hts, .inl ⟨e, rfl⟩⟩, fun _ => ⟨_, _, rfl⟩⟩
    | ok els =>
      simp only
      cases ho : resolveOutgoing (st.elements.getD []) els with
      | error e =>
        have := resolveOutgoing_error.mp ⟨e, ho⟩
        exact ⟨fun _ => ⟨not_lt.mp hts, .inr (.inl ⟨this.1, by rw [this.2]⟩)⟩, fun _ => ⟨_, _, rfl⟩⟩
      | ok out =>
        simp only
        rw [afterMap_error]
        constructor
        · rintro h
          exact ⟨not_lt.mp hts, .inr (.inr ⟨els, out, rfl, ho, h⟩)⟩
        · rintro ⟨_, ⟨e, h⟩ | ⟨h1, h2⟩ | ⟨els', out', h1, h2, h3⟩⟩
          · cases h
          · have h2 := Except.ok.inj h2
            obtain ⟨e, he⟩ := resolveOutgoing_error.mpr ⟨h1, h2⟩
            rw [ho] at he; cases he
          · cases h1
            rw [ho] at h2
            cases h2
            exact h3

/-- An empty window after a full one raises with the window algorithm, not with the incremental one. -/
example : Emptied (.window : Algorithm (List Nat) Nat) [⟨0, 0, 7⟩] [] ∧ ¬ Emptied (.incremental : Algorithm (List Nat) Nat) [⟨0, 0, 7⟩] [] := by
  refine ⟨⟨by simp, rfl, by simp, fun g h => (by cases h)⟩, fun h => h.2.2.1 rfl⟩

/-! ## C65 -/

/-- **C65** exactly: a window is ignored if and only if it is before the last processed one, before -1 if there is none. Then no
state changes and no function is called. -/
theorem C65_exact {shared : Bool} {w : Win δ} :
    ((∃ s', (process alg f initial shared w).run st = .ok [.outdated] s') ↔ w.ts < st.ts.getD (-1)) ∧
    (w.ts < st.ts.getD (-1) → (process alg f initial shared w).run st = .ok [.outdated] st) := by
  refine ⟨⟨?_, fun h => ⟨st, by rw [process_run, if_pos h]⟩⟩, fun h => by rw [process_run, if_pos h]⟩
  rintro ⟨s', h⟩
  by_contra hts
  rw [process_run, if_neg hts] at h
  cases hc : currentElements alg (st.elements.getD []) (sorted w.elements) with
  | error e => rw [hc] at h; cases h
  | ok els =>
    rw [hc] at h
    simp only at h
    cases ho : resolveOutgoing (st.elements.getD []) els with
    | error e => rw [ho] at h; cases h
    | ok out =>
      rw [ho] at h
      obtain ⟨o, h1, h2⟩ := afterMap_one h
      cases h1
      exact h2 rfl

/-- **C65** at the start of a stream: the first window is ignored exactly if it is before -1, and the start state is kept then. -/
theorem C65_start {shared : Bool} {w : Win δ} :
    ((∃ s', (process alg f initial shared w).run St.start = .ok [.outdated] s') ↔ w.ts < -1) ∧
    (w.ts < -1 → (process alg f initial shared w).run St.start = .ok [.outdated] ⟨none, none, none, none, []⟩) :=
  C65_exact (st := St.start)

/-- The stored time, -1 if there is none, never decreases. -/
theorem C65_monotone_all (ws : List (Bool × Win δ)) (st : St M S δ) :
    st.ts.getD (-1) ≤ ((processAll alg f initial ws).run st).state.ts.getD (-1) := by
  have step : ∀ (st : St M S δ) (shared : Bool) (w : Win δ),
      st.ts.getD (-1) ≤ ((process alg f initial shared w).run st).state.ts.getD (-1) := by
    intro st shared w
    rw [process_run]
    by_cases hw : w.ts < st.ts.getD (-1)
    · rw [if_pos hw]; exact le_refl _
    · rw [if_neg hw]
      cases currentElements alg (st.elements.getD []) (sorted w.elements) with
      | error e => exact le_refl _
      | ok els =>
        simp only
        cases resolveOutgoing (st.elements.getD []) els with
        | error e => exact le_refl _
        | ok out =>
          simp only
          rw [(afterMap_state alg f initial shared st w.ts els _ out).1]
          exact not_lt.mp hw
  induction ws generalizing st with
  | nil => exact le_refl _
  | cons w ws ih =>
    simp only [processAll, Py.run_bind]
    have h1 := step st w.1 w.2
    cases hr : (process alg f initial w.1 w.2).run st with
    | error e s1 => rw [hr] at h1; exact h1
    | ok o s1 =>
      rw [hr] at h1
      simp only
      have h2 := ih s1
      cases hr2 : (processAll alg f initial ws).run s1 with
      | error e s2 => rw [hr2] at h2; exact le_trans h1 h2
      | ok os s2 => rw [hr2] at h2; exact le_trans h1 h2

/-! ## C66 -/

/-- **C66** for all algorithms and windows: in the order of time, `map_fn` is told as incoming exactly the elements that are later
than all elements of the last processed window, and as outgoing exactly those elements of the last one that are earlier than
all elements now. -/
theorem C66_all {ws : List (Bool × Win δ)} {os : List (List (Output β))}
    (h0 : (processAll alg f initial ws).run St.start = .ok os st)
    {w : Win δ} {shared : Bool} {o : List (Output β)} (hw : st.ts.getD (-1) ≤ w.ts)
    (h : (process alg f initial shared w).run st = .ok o st') :
    ∃ els, st'.elements = some els ∧ Timed els ∧ mapArgs st'.calls = mapArgs st.calls ++
      [(els, els.filter (fun y => decide (∀ x ∈ st.elements.getD [], x.ts < y.ts)),
        (st.elements.getD []).filter fun x => decide (∀ y ∈ els, x.ts < y.ts))] := by
  have htimed : Timed (st.elements.getD []) := processAll_timed (st := St.start) List.Pairwise.nil h0
  obtain ⟨els, out, h1, h2, h3, h4⟩ := process_split (not_lt.mpr hw) h
  have hels := timed_of_le (currentElements_sorted (sorted_pairwise _) h1)
  refine ⟨els, h3, hels, ?_⟩
  rw [h4]
  generalize st.elements.getD [] = prev at *
  congr 2
  refine congrArg (Prod.mk els) (Prod.ext ?_ ?_)
  · simp only
    cases hl : prev.getLast? with
    | none =>
      rw [List.getLast?_eq_none_iff] at hl
      subst hl
      simp only [incoming_nil, List.not_mem_nil, false_imp_iff, implies_true, decide_true, List.filter_true]
    | some last =>
      rw [incoming_timed hels hl]
      apply List.filter_congr
      intro v _
      rw [decide_eq_decide]
      refine ⟨fun h x hx => ?_, fun h => h last (List.mem_of_getLast? hl)⟩
      obtain ⟨ys, hys⟩ := List.getLast?_eq_some_iff.mp hl
      rw [hys] at hx htimed
      rcases List.mem_append.mp hx with h' | h'
      · exact lt_of_le_of_lt ((List.pairwise_append.mp htimed).2.2 x h' last (by simp)) h
      · rw [List.mem_singleton] at h'; subst h'; exact h
  · simp only
    cases els with
    | nil =>
      cases prev with
      | nil => cases h2; rfl
      | cons p ps => cases h2
    | cons c cs =>
      rw [outgoing_timed htimed] at h2
      cases h2
      apply List.filter_congr
      intro x _
      rw [decide_eq_decide]
      refine ⟨fun h y hy => ?_, fun h => h c (by simp)⟩
      rcases List.mem_cons.mp hy with rfl | hy
      · exact h
      · exact lt_of_lt_of_le h ((List.pairwise_cons.mp hels).1 y hy)

/-! ## C68 -/

/-- **C68**, which dropped elements are reported: exactly those that are earlier than all current ones. -/
theorem C68_reported {keep : El δ → Bool} {ws : List (Bool × Win δ)} {os : List (List (Output β))}
    (h0 : (processAll (.«partial» fun x => .ok (keep x)) f initial ws).run St.start = .ok os st)
    {w : Win δ} {shared : Bool} {o : List (Output β)} (hw : st.ts.getD (-1) ≤ w.ts)
    (h : (process (.«partial» fun x => .ok (keep x)) f initial shared w).run st = .ok o st') :
    ∃ els inc out, mapArgs st'.calls = mapArgs st.calls ++ [(els, inc, out)] ∧
      els.Perm ((st.elements.getD []).filter keep ++ w.elements) ∧
      ∀ x, x ∈ out ↔ x ∈ st.elements.getD [] ∧ keep x = false ∧ (∀ y ∈ st.elements.getD [], keep y = true → x.ts < y.ts) ∧
        ∀ y ∈ w.elements, x.ts < y.ts := by
  obtain ⟨els, inc, out, g1, g2, g3, _, g5, _⟩ := C68_elements_partial h0 (not_lt.mpr hw) h
  obtain ⟨els', k1, _, k3⟩ := C66_all h0 hw h
  rw [g2] at k1
  cases k1
  rw [g1] at k3
  have k3 := List.append_cancel_left k3
  simp only [List.cons.injEq, Prod.mk.injEq, and_true, true_and] at k3
  refine ⟨els, inc, out, g1, g3, fun x => ?_⟩
  constructor
  · intro hx
    obtain ⟨a, b, _⟩ := g5 x hx
    rw [k3.2, List.mem_filter, decide_eq_true_eq] at hx
    exact ⟨a, b, fun y hy hk => hx.2 y (g3.mem_iff.mpr (List.mem_append_left _ (List.mem_filter.mpr ⟨hy, hk⟩))),
      fun y hy => hx.2 y (g3.mem_iff.mpr (List.mem_append_right _ hy))⟩
  · rintro ⟨a, _, b, c⟩
    rw [k3.2, List.mem_filter, decide_eq_true_eq]
    refine ⟨a, fun y hy => ?_⟩
    rcases List.mem_append.mp (g3.mem_iff.mp hy) with hy | hy
    · obtain ⟨h1, h2⟩ := List.mem_filter.mp hy
      exact b y h1 h2
    · exact c y hy

/-- **C68**, "each once" exactly: if and only if the window repeats no element and holds none that is retained. -/
theorem C68_once_exact {keep : El δ → Bool} {w : Win δ} {shared : Bool} {o : List (Output β)} (hw : st.ts.getD (-1) ≤ w.ts)
    (h : (process (.«partial» fun x => .ok (keep x)) f initial shared w).run st = .ok o st')
    (h1 : (st.elements.getD []).Nodup) : (st'.elements.getD []).Nodup ↔
      w.elements.Nodup ∧ ∀ x ∈ st.elements.getD [], keep x = true → x ∉ w.elements := by
  refine ⟨?_, fun ⟨h2, h3⟩ => C68_once_partial (not_lt.mpr hw) h h1 h2 h3⟩
  obtain ⟨els, out, g1, _, g3, _⟩ := process_split (not_lt.mpr hw) h
  simp only [currentElements, filterE_ok, Except.bind_ok] at g1
  have hels := Except.ok.inj g1
  rw [g3, Option.getD_some, ← hels, ((sorted_perm _).trans ((sorted_perm w.elements).append_left _)).nodup_iff, List.nodup_append]
  rintro ⟨_, a, b⟩
  exact ⟨a, fun x hx hk hm => b x (List.mem_filter.mpr ⟨hx, hk⟩) x hm rfl⟩

/-- Two windows with the partial algorithm: the second drops an element and is given the other. -/
example : ∃ os st st' o, (processAll (.«partial» fun x => .ok (decide (x.data = 8))) Ex.fns [] [(false, ⟨2, [⟨0, 0, 7⟩, ⟨1, 1, 8⟩]⟩)]).run
      St.start = .ok os st ∧ st.ts.getD (-1) ≤ 4 ∧ (st.elements.getD []).Nodup ∧
    (process (.«partial» fun x => .ok (decide (x.data = 8))) Ex.fns [] false ⟨4, [⟨3, 2, 9⟩]⟩).run st = .ok o st' :=
  ⟨_, _, _, _, rfl, by decide +kernel, by decide +kernel, rfl⟩

end Sawatabi.Props
