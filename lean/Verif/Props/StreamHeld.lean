import Verif.Props.StreamState

/-!
# C70, exactly: the stored model when `map_fn` is given the stored object
-/

namespace Sawatabi.Props

open Stream

variable {M S δ β : Type} {alg : Algorithm M δ} {f : Fns M S δ β} {initial : M} {st st' : St M S δ}

/-- What is held after a call, also if `map_fn` works on the object in the state: a `map_fn` that fails then leaves its
changes in the model that is held, if there is one. -/
def Held.afterIn (f : Fns M S δ β) (h : Held M S) : Bool × Call M S δ → Held M S
  | (shared, .mapFn m s els inc out) =>
    match (f.mapFn s els inc out).run m with
    | .ok m' _ => ⟨some m', h.sampleset⟩
    | .error _ changed => if shared = true ∧ h.model.isSome then ⟨some changed, h.sampleset⟩ else h
  | (_, .solveFn m s els inc out) =>
    match (f.solveFn s els inc out).run m with
    | .ok s' m' => ⟨some m', some s'⟩
    | .error _ m' => ⟨some m', h.sampleset⟩
  | (_, .unmapFn _ _ _ _) => h

/-- All calls in their order get what is held. -/
def Held.FitsIn (alg : Algorithm M δ) (f : Fns M S δ β) (initial : M) : Held M S → List (Bool × Call M S δ) → Prop
  | _, [] => True
  | h, c :: cs => h.Fits alg initial c.2 ∧ Held.FitsIn alg f initial (h.afterIn f c) cs

theorem fitsIn_append {h : Held M S} {l l' : List (Bool × Call M S δ)} :
    Held.FitsIn alg f initial h (l ++ l') ↔
      Held.FitsIn alg f initial h l ∧ Held.FitsIn alg f initial (l.foldl (Held.afterIn f) h) l' := by
  induction l generalizing h with
  | nil => simp [Held.FitsIn]
  | cons c l ih => simp only [List.cons_append, Held.FitsIn, List.foldl_cons, ih, and_assoc]

/-- A window whose calls are given. -/
def Held.Window (alg : Algorithm M δ) (f : Fns M S δ β) (initial : M) (shared : Bool) (st st' : St M S δ)
    (cs : List (Call M S δ)) : Prop :=
  st'.calls = st.calls ++ cs ∧
  Held.FitsIn alg f initial ⟨st.model, st.sampleset⟩ (cs.map (Prod.mk shared)) ∧
  (cs.map (Prod.mk shared)).foldl (Held.afterIn f) ⟨st.model, st.sampleset⟩ = ⟨st'.model, st'.sampleset⟩

theorem unmap_in {s : S} {els inc out : List (El δ)} (shared : Bool) {st : St M S δ} (hs : st.sampleset = some s)
    {o : List (Output β)} (h : (unmapStage f s els inc out).run st = .ok o st') :
    Held.Window alg f initial shared st st' [.unmapFn s els inc out] ∧ o ≠ [.outdated] := by
  unfold unmapStage at h
  simp only [Py.run_bind, Py.run_modify] at h
  cases hf : f.unmapFn s els inc out <;> rw [hf] at h <;> cases h <;>
    exact ⟨⟨rfl, ⟨hs, trivial⟩, rfl⟩, by simp⟩

theorem solve_in {model : M} {els inc out : List (El δ)} (shared : Bool) {t : Option ℚ} {es : Option (List (El δ))}
    {calls : List (Call M S δ)} {m0 : M} {s0 : Option S} (hp : PassedOn alg m0 model) {now : Option M} {o : List (Output β)}
    (h : (solveStage f s0 model els inc out).run ⟨t, es, now, s0, calls⟩ = .ok o st') :
    ∃ cs, Held.Window alg f initial shared ⟨t, es, some m0, s0, calls⟩ st' cs ∧ o ≠ [.outdated] := by
  unfold solveStage at h
  simp only [Py.run_bind, Py.run_modify] at h
  cases hs : (f.solveFn s0 els inc out).run model with
  | error e m' =>
    simp only [hs, Py.run_bind, Py.run_modify, Py.run_pure] at h
    cases h
    refine ⟨[.solveFn model s0 els inc out], ⟨rfl, ⟨⟨⟨m0, rfl, hp⟩, rfl⟩, trivial⟩, ?_⟩, by simp⟩
    simp only [List.map_cons, List.map_nil, List.foldl_cons, List.foldl_nil, Held.afterIn, hs]
  | ok s m' =>
    simp only [hs, Py.run_bind, Py.run_modify] at h
    obtain ⟨⟨h1, h2, h3⟩, ho⟩ := unmap_in (alg := alg) (initial := initial) shared rfl h
    refine ⟨[.solveFn model s0 els inc out, .unmapFn s els inc out], ⟨?_, ⟨⟨⟨m0, rfl, hp⟩, rfl⟩, ?_⟩, ?_⟩, ho⟩
    · rw [h1]; simp
    · simp only [Held.afterIn, hs]; exact h2
    · simp only [List.map_cons, List.map_nil, List.foldl_cons, Held.afterIn, hs]; exact h3

theorem process_in {w : Win δ} {shared : Bool} {o : List (Output β)}
    (h : (process alg f initial shared w).run st = .ok o st') :
    ∃ cs, Held.Window alg f initial shared st st' cs ∧ (o = [.outdated] ↔ cs = []) := by
  rw [process_run] at h
  by_cases hw : w.ts < st.ts.getD (-1)
  · rw [if_pos hw] at h; cases h; exact ⟨[], ⟨by simp, trivial, rfl⟩, by simp⟩
  · rw [if_neg hw] at h
    cases hc : currentElements alg (st.elements.getD []) (sorted w.elements) with
    | error e => rw [hc] at h; cases h
    | ok els =>
      rw [hc] at h
      simp only at h
      cases ho : resolveOutgoing (st.elements.getD []) els with
      | error e => rw [ho] at h; cases h
      | ok out =>
        rw [ho] at h
        simp only at h
        generalize resolveIncoming (st.elements.getD []) els = inc at h
        unfold afterMap at h
        simp only at h
        cases hm : (f.mapFn st.sampleset els inc out).run (st.model.getD initial) with
        | error e changed =>
          simp only [hm] at h
          cases h
          refine ⟨[.mapFn (st.model.getD initial) st.sampleset els inc out], ⟨rfl, ⟨⟨rfl, rfl⟩, trivial⟩, ?_⟩, by simp⟩
          simp only [List.map_cons, List.map_nil, List.foldl_cons, List.foldl_nil, Held.afterIn, hm]
          cases shared <;> cases st.model <;> rfl
        | ok model m' =>
          simp only [hm] at h
          have key : ∀ {model2 : M} {now : Option M}, PassedOn alg model model2 →
              (solveStage f st.sampleset model2 els inc out).run ⟨some w.ts, some els, now, st.sampleset,
                st.calls ++ [.mapFn (st.model.getD initial) st.sampleset els inc out]⟩ = .ok o st' →
              ∃ cs, Held.Window alg f initial shared st st' cs ∧ (o = [.outdated] ↔ cs = []) := by
            intro model2 now hp h
            obtain ⟨cs, ⟨h1, h2, h3⟩, h4⟩ := solve_in (initial := initial) shared hp h
            refine ⟨.mapFn (st.model.getD initial) st.sampleset els inc out :: cs, ⟨?_, ⟨⟨rfl, rfl⟩, ?_⟩, ?_⟩, by simp [h4]⟩
            · rw [h1]; simp
            · simp only [Held.afterIn, hm]; exact h2
            · simp only [List.map_cons, List.foldl_cons, Held.afterIn, hm]; exact h3
          cases alg with
          | attenuation step =>
            unfold attenuationStage at h
            simp only at h
            cases hstep : step.run model with
            | error e m2 => simp only [hstep] at h; cases h
            | ok u m2 =>
              simp only [hstep] at h
              exact key (now := some m2) (by unfold PassedOn; exact hstep) h
          | _ => exact key (now := some model) rfl h

/-- The calls of the windows, each with whether `map_fn` got the object in the state. -/
def taggedCalls (ws : List (Bool × Win δ)) (css : List (List (Call M S δ))) : List (Bool × Call M S δ) :=
  (ws.zip css).flatMap fun p => p.2.map (Prod.mk p.1.1)

/-- **C70** for every run, whether `map_fn` gets a copy of the model or the object in the state: every call gets the model and
the sampleset that are held, the states hold them in the end, and the model held is that of the last successful `map_fn`
with what later `solve_fn`s and, where it is shared, failing `map_fn`s have done to it. Only ignored windows make no calls. -/
theorem C70_exact {ws : List (Bool × Win δ)} {os : List (List (Output β))}
    (h : (processAll alg f initial ws).run St.start = .ok os st') :
    ∃ css : List (List (Call M S δ)), css.length = ws.length ∧ st'.calls = css.flatten ∧
      List.Forall₂ (fun o cs => o = [.outdated] ↔ cs = []) os css ∧
      Held.FitsIn alg f initial ⟨none, none⟩ (taggedCalls ws css) ∧
      (taggedCalls ws css).foldl (Held.afterIn f) ⟨none, none⟩ = ⟨st'.model, st'.sampleset⟩ := by
  have gen : ∀ (ws : List (Bool × Win δ)) (st : St M S δ) os, (processAll alg f initial ws).run st = .ok os st' →
      ∃ css : List (List (Call M S δ)), css.length = ws.length ∧ st'.calls = st.calls ++ css.flatten ∧
        List.Forall₂ (fun o cs => o = [.outdated] ↔ cs = []) os css ∧
        Held.FitsIn alg f initial ⟨st.model, st.sampleset⟩ (taggedCalls ws css) ∧
        (taggedCalls ws css).foldl (Held.afterIn f) ⟨st.model, st.sampleset⟩ = ⟨st'.model, st'.sampleset⟩ := by
    intro ws
    induction ws with
    | nil => intro st os h; cases h; exact ⟨[], rfl, by simp, .nil, trivial, rfl⟩
    | cons w ws ih =>
      intro st os h
      simp only [processAll, Py.run_bind] at h
      cases hr : (process alg f initial w.1 w.2).run st with
      | error e s1 => rw [hr] at h; cases h
      | ok o s1 =>
        rw [hr] at h
        simp only at h
        cases hr2 : (processAll alg f initial ws).run s1 with
        | error e s2 => rw [hr2] at h; cases h
        | ok os2 s2 =>
          rw [hr2] at h
          cases h
          obtain ⟨cs, ⟨a1, a2, a3⟩, a4⟩ := process_in hr
          obtain ⟨css, b1, b2, b3, b4, b5⟩ := ih s1 os2 hr2
          refine ⟨cs :: css, by simp [b1], ?_, .cons a4 b3, ?_, ?_⟩
          · rw [b2, a1]; simp
          · unfold taggedCalls
            rw [List.zip_cons_cons, List.flatMap_cons, fitsIn_append, a3]
            exact ⟨a2, b4⟩
          · unfold taggedCalls
            rw [List.zip_cons_cons, List.flatMap_cons, List.foldl_append, a3]
            exact b5
  simpa [St.start] using gen ws St.start os h

/-- The run of `C70_shared_refuted`, in which a failing `map_fn` changes the model that is held. -/
example : ∃ os st', (processAll .delta Ex.fns []
    [(true, ⟨2, [⟨1, 0, 7⟩]⟩), (true, ⟨3, [⟨2, 1, 13⟩]⟩), (true, ⟨4, [⟨3, 2, 9⟩]⟩)]).run St.start = .ok os st' :=
  let ⟨os, st', h, _⟩ := C70_shared_refuted; ⟨os, st', h⟩

end Sawatabi.Props
