import Verif.Model.Stream
import Verif.Lemmas.Monad
import Verif.Lemmas.Solver
import Mathlib.Tactic.Linarith

/-!
# Lemmas: windows
-/

namespace Sawatabi.Stream

variable {M S δ β : Type}

/-! ## Sorting -/

theorem El.le_iff {a b : El δ} : El.le a b = true ↔ a.ts < b.ts ∨ (a.ts = b.ts ∧ a.idx ≤ b.idx) := by
  simp [El.le]

theorem El.le_trans' (a b c : El δ) (h1 : El.le a b = true) (h2 : El.le b c = true) : El.le a c = true := by
  rw [El.le_iff] at *
  rcases h1 with h1 | ⟨h1, h1'⟩ <;> rcases h2 with h2 | ⟨h2, h2'⟩
  · left; linarith
  · left; linarith
  · left; linarith
  · right; exact ⟨by linarith, by omega⟩

theorem El.le_total' (a b : El δ) : (El.le a b || El.le b a) = true := by
  rw [Bool.or_eq_true, El.le_iff, El.le_iff]
  rcases lt_trichotomy a.ts b.ts with h | h | h
  · exact .inl (.inl h)
  · rcases Nat.le_total a.idx b.idx with hi | hi
    · exact .inl (.inr ⟨h, hi⟩)
    · exact .inr (.inr ⟨h.symm, hi⟩)
  · exact .inr (.inl h)

theorem insert_perm (a : El δ) (l : List (El δ)) : (insert a l).Perm (a :: l) := by
  induction l with
  | nil => exact List.Perm.refl _
  | cons b l ih =>
    unfold insert
    by_cases h : El.le a b = true
    · rw [if_pos h]
    · rw [if_neg h]
      exact (ih.cons b).trans (List.Perm.swap a b l)

theorem sorted_perm (l : List (El δ)) : (sorted l).Perm l := by
  induction l with
  | nil => exact List.Perm.refl _
  | cons a l ih => exact (insert_perm a (sorted l)).trans (ih.cons a)

theorem mem_sorted {l : List (El δ)} {a : El δ} : a ∈ sorted l ↔ a ∈ l := (sorted_perm l).mem_iff

theorem insert_pairwise (a : El δ) {l : List (El δ)} (h : l.Pairwise fun a b => El.le a b = true) :
    (insert a l).Pairwise fun a b => El.le a b = true := by
  induction l with
  | nil => exact List.pairwise_singleton _ _
  | cons b l ih =>
    unfold insert
    rw [List.pairwise_cons] at h
    by_cases hab : El.le a b = true
    · rw [if_pos hab, List.pairwise_cons, List.pairwise_cons]
      refine ⟨fun x hx => ?_, h⟩
      rcases List.mem_cons.mp hx with rfl | hx
      · exact hab
      · exact El.le_trans' _ _ _ hab (h.1 x hx)
    · rw [if_neg hab, List.pairwise_cons]
      refine ⟨fun x hx => ?_, ih h.2⟩
      rcases List.mem_cons.mp ((insert_perm a l).mem_iff.mp hx) with rfl | hx
      · have := El.le_total' x b
        simpa [hab] using this
      · exact h.1 x hx

theorem sorted_pairwise (l : List (El δ)) : (sorted l).Pairwise fun a b => El.le a b = true := by
  induction l with
  | nil => exact List.Pairwise.nil
  | cons a l ih => exact insert_pairwise a ih

/-- In the order of time. -/
def Timed (l : List (El δ)) : Prop := l.Pairwise fun a b => a.ts ≤ b.ts

theorem timed_of_le {l : List (El δ)} (h : l.Pairwise fun a b => El.le a b = true) : Timed l :=
  h.imp fun {a b} hab => by
    rcases El.le_iff.mp hab with h | h
    · exact h.le
    · exact h.1.le

theorem sorted_timed (l : List (El δ)) : Timed (sorted l) := timed_of_le (sorted_pairwise l)

/-- No two elements have the same time and index. -/
def Distinct (l : List (El δ)) : Prop := l.Pairwise fun a b => ¬ (a.ts = b.ts ∧ a.idx = b.idx)

theorem distinct_eq {l : List (El δ)} (h : Distinct l) {a b : El δ} (ha : a ∈ l) (hb : b ∈ l) (ht : a.ts = b.ts) (hi : a.idx = b.idx) :
    a = b := by
  induction l with
  | nil => cases ha
  | cons c l ih =>
    obtain ⟨h1, h2⟩ := List.pairwise_cons.mp h
    rcases List.mem_cons.mp ha with rfl | ha' <;> rcases List.mem_cons.mp hb with rfl | hb'
    · rfl
    · exact absurd ⟨ht, hi⟩ (h1 b hb')
    · exact absurd ⟨ht.symm, hi.symm⟩ (h1 a ha')
    · exact ih h2 ha' hb'

theorem sorted_unique {l l' : List (El δ)} (hd : Distinct l) (hp : l.Perm l')
    (hs : l'.Pairwise fun a b => El.le a b = true) : sorted l = l' := by
  apply List.Perm.eq_of_pairwise (le := fun a b => El.le a b = true) _ (sorted_pairwise l) hs ((sorted_perm l).trans hp)
  intro a b ha hb h1 h2
  rw [El.le_iff] at h1 h2
  have ha' : a ∈ l := mem_sorted.mp ha
  have hb' : b ∈ l := hp.mem_iff.mpr hb
  rcases h1 with h1 | ⟨h1, h1'⟩ <;> rcases h2 with h2 | ⟨h2, h2'⟩
  · linarith
  · linarith
  · linarith
  · exact distinct_eq hd ha' hb' h1 (by omega)

theorem sorted_congr {l l' : List (El δ)} (hd : Distinct l) (hp : l.Perm l') : sorted l = sorted l' :=
  sorted_unique hd (hp.trans (sorted_perm l').symm) (sorted_pairwise l')

/-! ## Incoming and outgoing -/

theorem resolveOutgoing_cons (prev : List (El δ)) (c : El δ) (cs : List (El δ)) :
    resolveOutgoing prev (c :: cs) = .ok (prev.takeWhile fun p => decide (p.ts < c.ts)) := by
  induction prev with
  | nil => rfl
  | cons p ps ih =>
    unfold resolveOutgoing
    by_cases h : p.ts ≥ c.ts
    · rw [if_pos h, List.takeWhile_cons, if_neg (by simpa using h)]
    · rw [if_neg h, ih, List.takeWhile_cons, if_pos (by simpa using h)]
      rfl

theorem takeWhile_eq_filter {l : List (El δ)} {p : El δ → Bool} (h : l.Pairwise fun a b => p b = true → p a = true) :
    l.takeWhile p = l.filter p := by
  induction l with
  | nil => rfl
  | cons a l ih =>
    rw [List.pairwise_cons] at h
    cases ha : p a with
    | true => rw [List.takeWhile_cons, List.filter_cons, ha, if_pos rfl, if_pos rfl, ih h.2]
    | false =>
      rw [List.takeWhile_cons, List.filter_cons, ha]
      simp only [Bool.false_eq_true, if_false]
      symm
      rw [List.filter_eq_nil_iff]
      intro b hb hpb
      rw [h.1 b hb hpb] at ha
      cases ha

/-- The outgoing elements are those before the first current one. -/
theorem outgoing_timed {prev : List (El δ)} (ht : Timed prev) (c : El δ) (cs : List (El δ)) :
    resolveOutgoing prev (c :: cs) = .ok (prev.filter fun p => decide (p.ts < c.ts)) := by
  rw [resolveOutgoing_cons, takeWhile_eq_filter]
  exact ht.imp fun {a b} hab h => by
    simp only [decide_eq_true_eq] at h ⊢
    linarith

/-- The incoming elements are those after the last previous one. -/
theorem incoming_timed {prev cur : List (El δ)} (ht : Timed cur) {last : El δ} (hl : prev.getLast? = some last) :
    resolveIncoming prev cur = cur.filter fun v => decide (last.ts < v.ts) := by
  unfold resolveIncoming
  rw [hl]
  simp only
  rw [takeWhile_eq_filter, List.filter_reverse, List.reverse_reverse]
  · apply List.filter_congr
    intro v _
    by_cases h : v.ts ≤ last.ts
    · simp [h]
    · simp [h]; exact not_le.mp h
  · rw [List.pairwise_reverse]
    exact ht.imp fun {a b} hab h => by
      simp only [Bool.not_eq_true', decide_eq_false_iff_not, not_le] at h ⊢
      linarith

theorem incoming_nil (cur : List (El δ)) : resolveIncoming [] cur = cur := rfl

/-! ## One window -/

/-- The window after `map_fn` has been called. -/
def afterMap (alg : Algorithm M δ) (f : Fns M S δ β) (initial : M) (shared : Bool) (st : St M S δ) (t : ℚ)
    (els inc out : List (El δ)) : Res (St M S δ) (List (Output β)) :=
  let st1 : St M S δ := ⟨some t, some els, st.model, st.sampleset,
    st.calls ++ [.mapFn (st.model.getD initial) st.sampleset els inc out]⟩
  match (f.mapFn st.sampleset els inc out).run (st.model.getD initial) with
  | .error e changed => .ok [.failedMap e] { st1 with model := if shared then st1.model.map fun _ => changed else st1.model }
  | .ok model _ =>
    match (attenuationStage alg model).run { st1 with model := some model } with
    | .error e st2 => .error e st2
    | .ok model st2 => (solveStage f st.sampleset model els inc out).run st2

theorem process_run (alg : Algorithm M δ) (f : Fns M S δ β) (initial : M) (shared : Bool) (w : Win δ) (st : St M S δ) :
    (process alg f initial shared w).run st =
      if w.ts < st.ts.getD (-1) then .ok [.outdated] st
      else match currentElements alg (st.elements.getD []) (sorted w.elements) with
        | .error e => .error e st
        | .ok els => match resolveOutgoing (st.elements.getD []) els with
          | .error e => .error e st
          | .ok out => afterMap alg f initial shared st w.ts els (resolveIncoming (st.elements.getD []) els) out := by
  unfold process afterMap
  simp only [Py.run_bind, Py.run_get]
  by_cases hts : w.ts < st.ts.getD (-1)
  · simp only [hts, if_true, Py.run_pure]
  · simp only [hts, if_false, Py.run_bind, Py.run_liftE]
    cases hc : currentElements alg (st.elements.getD []) (sorted w.elements) with
    | error e => rfl
    | ok els =>
      simp only
      cases ho : resolveOutgoing (st.elements.getD []) els with
      | error e => rfl
      | ok out =>
        simp only [Py.run_bind, Py.run_modify]
        cases hm : (f.mapFn st.sampleset els (resolveIncoming (st.elements.getD []) els) out).run (st.model.getD initial) with
        | error e changed => rfl
        | ok model m' =>
          simp only [Py.run_bind, Py.run_modify]
          generalize (attenuationStage alg model).run _ = x
          cases x <;> rfl

/-- The solving stage yields one output, whatever the functions do. -/
theorem solveStage_run (f : Fns M S δ β) (prevS : Option S) (model : M) (els inc out : List (El δ)) (st : St M S δ) :
    (solveStage f prevS model els inc out).run st =
      match (f.solveFn prevS els inc out).run model with
      | .error e model' => .ok [.failedSolve e]
          { st with model := some model', calls := st.calls ++ [.solveFn model prevS els inc out] }
      | .ok s model' => .ok [match f.unmapFn s els inc out with | .ok b => .result b | .error e => .failedUnmap e]
          { st with model := some model', sampleset := some s,
                    calls := st.calls ++ [.solveFn model prevS els inc out, .unmapFn s els inc out] } := by
  unfold solveStage
  simp only [Py.run_bind, Py.run_modify]
  cases hs : (f.solveFn prevS els inc out).run model with
  | error e model' => rfl
  | ok s model' =>
    simp only [unmapStage, Py.run_bind, Py.run_modify]
    cases f.unmapFn s els inc out <;> simp [Py.run_pure]

/-- What `map_fn` was called with: elements, incoming and outgoing. -/
def mapArgs (calls : List (Call M S δ)) : List (List (El δ) × List (El δ) × List (El δ)) :=
  calls.filterMap fun c => match c with
    | .mapFn _ _ els inc out => some (els, inc, out)
    | _ => none

theorem mapArgs_append (a b : List (Call M S δ)) : mapArgs (a ++ b) = mapArgs a ++ mapArgs b := List.filterMap_append

/-- Whatever happens after `map_fn` has been called, time, elements and the recorded arguments are the same. -/
theorem afterMap_state (alg : Algorithm M δ) (f : Fns M S δ β) (initial : M) (shared : Bool) (st : St M S δ) (t : ℚ)
    (els inc out : List (El δ)) :
    (afterMap alg f initial shared st t els inc out).state.ts = some t ∧
    (afterMap alg f initial shared st t els inc out).state.elements = some els ∧
    mapArgs (afterMap alg f initial shared st t els inc out).state.calls = mapArgs st.calls ++ [(els, inc, out)] := by
  unfold afterMap
  simp only
  cases hm : (f.mapFn st.sampleset els inc out).run (st.model.getD initial) with
  | error e changed => exact ⟨rfl, rfl, mapArgs_append _ _⟩
  | ok model m' =>
    simp only
    have hatt : ((attenuationStage alg model).run (⟨some t, some els, some model, st.sampleset,
        st.calls ++ [.mapFn (st.model.getD initial) st.sampleset els inc out]⟩ : St M S δ)).state.ts = some t ∧
        ((attenuationStage alg model).run (⟨some t, some els, some model, st.sampleset,
        st.calls ++ [.mapFn (st.model.getD initial) st.sampleset els inc out]⟩ : St M S δ)).state.elements = some els ∧
        ((attenuationStage alg model).run (⟨some t, some els, some model, st.sampleset,
        st.calls ++ [.mapFn (st.model.getD initial) st.sampleset els inc out]⟩ : St M S δ)).state.calls =
          st.calls ++ [.mapFn (st.model.getD initial) st.sampleset els inc out] := by
      unfold attenuationStage
      cases alg with
      | attenuation step =>
        simp only
        cases step.run model <;> exact ⟨rfl, rfl, rfl⟩
      | _ => exact ⟨rfl, rfl, rfl⟩
    cases ha : (attenuationStage alg model).run (⟨some t, some els, some model, st.sampleset,
        st.calls ++ [.mapFn (st.model.getD initial) st.sampleset els inc out]⟩ : St M S δ) with
    | error e st2 =>
      rw [ha] at hatt
      exact ⟨hatt.1, hatt.2.1, by simp only [Res.state] at hatt ⊢; rw [hatt.2.2, mapArgs_append]; rfl⟩
    | ok model2 st2 =>
      rw [ha] at hatt
      simp only [Res.state] at hatt
      simp only
      rw [solveStage_run]
      cases (f.solveFn st.sampleset els inc out).run model2 with
      | error e m2 =>
        refine ⟨hatt.1, hatt.2.1, ?_⟩
        simp only [Res.state]
        rw [hatt.2.2, mapArgs_append, mapArgs_append]; simp [mapArgs]
      | ok s m2 =>
        refine ⟨hatt.1, hatt.2.1, ?_⟩
        simp only [Res.state]
        rw [hatt.2.2, mapArgs_append, mapArgs_append]; simp [mapArgs]

/-- The arguments of `map_fn` in a sequence of windows that are all processed. -/
def trace (alg : Algorithm M δ) : List (El δ) → List (Win δ) → Except Err (List (List (El δ) × List (El δ) × List (El δ)))
  | _, [] => .ok []
  | prev, w :: ws => do
    let els ← currentElements alg prev (sorted w.elements)
    let out ← resolveOutgoing prev els
    let rest ← trace alg els ws
    return (els, resolveIncoming prev els, out) :: rest

/-- The windows come in the order of time, from the given time on. -/
def InOrder : ℚ → List (Win δ) → Prop
  | _, [] => True
  | t, w :: ws => t ≤ w.ts ∧ InOrder w.ts ws

/-- In a run over windows in order, `map_fn` gets the arguments of the trace. -/
theorem processAll_trace {alg : Algorithm M δ} {f : Fns M S δ β} {initial : M} {ws : List (Bool × Win δ)} {st st' : St M S δ}
    {os : List (List (Output β))} (ho : InOrder (st.ts.getD (-1)) (ws.map (·.2)))
    (h : (processAll alg f initial ws).run st = .ok os st') :
    ∃ tr, trace alg (st.elements.getD []) (ws.map (·.2)) = .ok tr ∧ mapArgs st'.calls = mapArgs st.calls ++ tr := by
  induction ws generalizing st os with
  | nil => cases h; exact ⟨[], rfl, by simp⟩
  | cons w ws ih =>
    obtain ⟨h1, h2⟩ := ho
    simp only [processAll, Py.run_bind, process_run, if_neg (not_lt.mpr h1)] at h
    cases hc : currentElements alg (st.elements.getD []) (sorted w.2.elements) with
    | error e => rw [hc] at h; cases h
    | ok els =>
      rw [hc] at h
      simp only at h
      cases hout : resolveOutgoing (st.elements.getD []) els with
      | error e => rw [hout] at h; cases h
      | ok out =>
        rw [hout] at h
        simp only at h
        obtain ⟨g1, g2, g3⟩ := afterMap_state alg f initial w.1 st w.2.ts els (resolveIncoming (st.elements.getD []) els) out
        cases ha : afterMap alg f initial w.1 st w.2.ts els (resolveIncoming (st.elements.getD []) els) out with
        | error e st1 => rw [ha] at h; cases h
        | ok o st1 =>
          rw [ha] at h g1 g2 g3
          simp only [Res.state] at h g1 g2 g3
          cases hr : (processAll alg f initial ws).run st1 with
          | error e st2 => rw [hr] at h; cases h
          | ok os' st2 =>
            rw [hr] at h
            cases h
            obtain ⟨tr, t1, t2⟩ := ih (st := st1) (by rw [g1]; exact h2) hr
            rw [g2] at t1
            refine ⟨(els, resolveIncoming (st.elements.getD []) els, out) :: tr, ?_, ?_⟩
            · simp only [List.map_cons, trace]
              rw [hc, Except.bind_ok, hout, Except.bind_ok]
              simp only [Option.getD_some] at t1
              rw [t1]; rfl
            · rw [t2, g3, List.append_assoc]; rfl

end Sawatabi.Stream
