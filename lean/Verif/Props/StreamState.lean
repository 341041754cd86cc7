import Verif.Props.Stream

/-!
# C68–C70: the partial algorithm, failures, and the stored model
-/

namespace Sawatabi.Props

open Stream

variable {M S δ β : Type} {alg : Algorithm M δ} {f : Fns M S δ β} {initial : M} {st st' : St M S δ}

/-! ## C68: partial -/

/-- A window that is not ignored, taken apart. -/
theorem process_split {w : Win δ} {shared : Bool} {o : List (Output β)} (hw : ¬ w.ts < st.ts.getD (-1))
    (h : (process alg f initial shared w).run st = .ok o st') :
    ∃ els out, currentElements alg (st.elements.getD []) (sorted w.elements) = .ok els ∧
      resolveOutgoing (st.elements.getD []) els = .ok out ∧ st'.elements = some els ∧
      mapArgs st'.calls = mapArgs st.calls ++ [(els, resolveIncoming (st.elements.getD []) els, out)] := by
  rw [process_run, if_neg hw] at h
  cases hc : currentElements alg (st.elements.getD []) (sorted w.elements) with
  | error e => rw [hc] at h; cases h
  | ok els =>
    rw [hc] at h
    simp only at h
    cases ho : resolveOutgoing (st.elements.getD []) els with
    | error e => rw [ho] at h; cases h
    | ok out =>
      rw [ho] at h
      simp only at h
      obtain ⟨_, g2, g3⟩ := afterMap_state alg f initial shared st w.ts els (resolveIncoming (st.elements.getD []) els) out
      rw [h] at g2 g3
      exact ⟨els, out, rfl, ho, g2, g3⟩

theorem process_timed (ht : Timed (st.elements.getD [])) {w : Win δ} {shared : Bool} {o : List (Output β)}
    (h : (process alg f initial shared w).run st = .ok o st') : Timed (st'.elements.getD []) := by
  by_cases hw : w.ts < st.ts.getD (-1)
  · rw [process_run, if_pos hw] at h
    cases h; exact ht
  · obtain ⟨els, out, h1, _, h3, _⟩ := process_split hw h
    rw [h3]
    exact timed_of_le (currentElements_sorted (sorted_pairwise _) h1)

theorem processAll_timed {ws : List (Bool × Win δ)} (ht : Timed (st.elements.getD [])) {os : List (List (Output β))}
    (h : (processAll alg f initial ws).run st = .ok os st') : Timed (st'.elements.getD []) := by
  induction ws generalizing st os with
  | nil => cases h; exact ht
  | cons w ws ih =>
    simp only [processAll, Py.run_bind] at h
    cases hr : (process alg f initial w.1 w.2).run st with
    | error e s1 => rw [hr] at h; cases h
    | ok o s1 =>
      rw [hr] at h
      simp only at h
      cases hr2 : (processAll alg f initial ws).run s1 with
      | error e s2 => rw [hr2] at h; cases h
      | ok os2 s2 =>
        rw [hr2] at h
        cases h
        exact ih (process_timed ht hr) hr2

theorem filterE_ok (keep : El δ → Bool) (l : List (El δ)) : filterE (fun x => .ok (keep x)) l = .ok (l.filter keep) := by
  induction l with
  | nil => rfl
  | cons a l ih =>
    unfold filterE
    rw [Except.bind_ok, ih, Except.bind_ok, List.filter_cons]
    rfl

/-- **C68** without "each once", and with "reported" only in the case told: after any windows from the start, the next one
gives `map_fn` the retained elements and those of the window, in the order of time. Outgoing are only dropped elements, and
if all dropped ones are older than all current ones then outgoing are exactly the dropped ones. -/
theorem C68_elements_partial {keep : El δ → Bool} {ws : List (Bool × Win δ)} {os : List (List (Output β))}
    (h0 : (processAll (.«partial» fun x => .ok (keep x)) f initial ws).run St.start = .ok os st)
    {w : Win δ} {shared : Bool} {o : List (Output β)} (hw : ¬ w.ts < st.ts.getD (-1))
    (h : (process (.«partial» fun x => .ok (keep x)) f initial shared w).run st = .ok o st') :
    ∃ els inc out, mapArgs st'.calls = mapArgs st.calls ++ [(els, inc, out)] ∧ st'.elements = some els ∧
      els.Perm ((st.elements.getD []).filter keep ++ w.elements) ∧ Timed els ∧
      (∀ x ∈ out, x ∈ st.elements.getD [] ∧ keep x = false ∧ x ∉ w.elements) ∧
      ((∀ x ∈ st.elements.getD [], keep x = false → ∀ y ∈ els, x.ts < y.ts) →
        out = (st.elements.getD []).filter fun x => !keep x) := by
  have htimed : Timed (st.elements.getD []) := processAll_timed (st := St.start) List.Pairwise.nil h0
  obtain ⟨els, out, h1, h2, h3, h4⟩ := process_split hw h
  generalize st.elements.getD [] = prev at *
  have hsort := currentElements_sorted (sorted_pairwise _) h1
  simp only [currentElements, filterE_ok, Except.bind_ok] at h1
  have hels : sorted (prev.filter keep ++ sorted w.elements) = els := Except.ok.inj h1
  have hperm : els.Perm (prev.filter keep ++ w.elements) := by
    rw [← hels]
    exact (sorted_perm _).trans ((sorted_perm w.elements).append_left _)
  refine ⟨els, _, out, h4, h3, hperm, timed_of_le hsort, ?_, ?_⟩
  · intro x hx
    cases els with
    | nil =>
      cases prev with
      | nil => cases h2; cases hx
      | cons p ps => cases h2
    | cons c cs =>
      rw [outgoing_timed htimed] at h2
      cases h2
      obtain ⟨hx1, hx2⟩ := List.mem_filter.mp hx
      have hlt : x.ts < c.ts := of_decide_eq_true hx2
      have hnot : x ∉ c :: cs := by
        intro hm
        rcases List.mem_cons.mp hm with rfl | hm
        · exact lt_irrefl _ hlt
        · exact absurd ((List.pairwise_cons.mp (timed_of_le hsort)).1 x hm) (not_le.mpr hlt)
      rw [hperm.mem_iff, List.mem_append, not_or, List.mem_filter, not_and] at hnot
      exact ⟨hx1, by simpa using hnot.1 hx1, hnot.2⟩
  · intro hold
    cases els with
    | nil =>
      cases prev with
      | nil => cases h2; rfl
      | cons p ps => cases h2
    | cons c cs =>
      rw [outgoing_timed htimed] at h2
      cases h2
      apply List.filter_congr
      intro x hx
      cases hk : keep x with
      | false => simpa using hold x hx hk c (by simp)
      | true =>
        have hm : x ∈ c :: cs := hperm.mem_iff.mpr (List.mem_append_left _ (List.mem_filter.mpr ⟨hx, hk⟩))
        have : c.ts ≤ x.ts := by
          rcases List.mem_cons.mp hm with rfl | hm
          · exact le_refl _
          · exact (List.pairwise_cons.mp (timed_of_le hsort)).1 x hm
        simpa using this

/-- **C68**, "each once", for windows that do not overlap with what is retained. -/
theorem C68_once_partial {keep : El δ → Bool} {w : Win δ} {shared : Bool} {o : List (Output β)} (hw : ¬ w.ts < st.ts.getD (-1))
    (h : (process (.«partial» fun x => .ok (keep x)) f initial shared w).run st = .ok o st')
    (h1 : (st.elements.getD []).Nodup) (h2 : w.elements.Nodup)
    (h3 : ∀ x ∈ st.elements.getD [], keep x = true → x ∉ w.elements) : (st'.elements.getD []).Nodup := by
  obtain ⟨els, out, g1, _, g3, _⟩ := process_split hw h
  simp only [currentElements, filterE_ok, Except.bind_ok] at g1
  have hels := Except.ok.inj g1
  rw [g3, Option.getD_some, ← hels, ((sorted_perm _).trans ((sorted_perm w.elements).append_left _)).nodup_iff, List.nodup_append]
  refine ⟨h1.filter _, h2, ?_⟩
  intro x hx y hy hxy
  subst hxy
  obtain ⟨k1, k2⟩ := List.mem_filter.mp hx
  exact h3 x k1 k2 hy

/-- Sliding windows overlap, so an element that is retained and still in the window occurs twice. -/
theorem C68_twice_refuted :
    ∃ os st', (processAll (.«partial» fun _ => .ok true) Ex.fns []
        [(false, ⟨2, [⟨0, 0, 7⟩, ⟨1, 1, 8⟩]⟩), (false, ⟨3, [⟨1, 1, 8⟩, ⟨2, 2, 9⟩]⟩)]).run St.start = .ok os st' ∧
      decide (mapArgs st'.calls = [([⟨0, 0, 7⟩, ⟨1, 1, 8⟩], [⟨0, 0, 7⟩, ⟨1, 1, 8⟩], []),
        ([⟨0, 0, 7⟩, ⟨1, 1, 8⟩, ⟨1, 1, 8⟩, ⟨2, 2, 9⟩], [⟨2, 2, 9⟩], [])]) = true :=
  Ex.exists_of_okAnd (by decide +kernel)

/-- A dropped element is not reported if an older one is retained. -/
theorem C68_outgoing_refuted :
    ∃ os st', (processAll (.«partial» fun x => .ok (decide (x.data = 7))) Ex.fns []
        [(false, ⟨2, [⟨0, 0, 7⟩, ⟨1, 1, 8⟩]⟩), (false, ⟨4, [⟨3, 2, 9⟩]⟩)]).run St.start = .ok os st' ∧
      decide (mapArgs st'.calls = [([⟨0, 0, 7⟩, ⟨1, 1, 8⟩], [⟨0, 0, 7⟩, ⟨1, 1, 8⟩], []),
        ([⟨0, 0, 7⟩, ⟨3, 2, 9⟩], [⟨3, 2, 9⟩], [])]) = true :=
  Ex.exists_of_okAnd (by decide +kernel)

example :
    ∃ os st', (processAll (.«partial» fun x => .ok (decide (x.data = 8))) Ex.fns []
        [(false, ⟨2, [⟨0, 0, 7⟩, ⟨1, 1, 8⟩]⟩), (false, ⟨4, [⟨3, 2, 9⟩]⟩)]).run St.start = .ok os st' ∧
      decide (mapArgs st'.calls = [([⟨0, 0, 7⟩, ⟨1, 1, 8⟩], [⟨0, 0, 7⟩, ⟨1, 1, 8⟩], []),
        ([⟨1, 1, 8⟩, ⟨3, 2, 9⟩], [⟨3, 2, 9⟩], [⟨0, 0, 7⟩])]) = true :=
  Ex.exists_of_okAnd (by decide +kernel)

/-! ## C69: failing `map_fn` -/

section
variable [DecidableEq δ] {E : List (El δ)} {a b : ℚ}

theorem differences_incoming {u : Win δ} {ws : List (Win δ)} (hu : Cut E a b u) (h : Sliding E a b ws) {x : El δ} (hx : x ∈ E)
    (hb : x.ts < b) : ∀ t ∈ differences (sorted u.elements) ws, x ∉ t.2.1 := by
  induction ws generalizing u a b with
  | nil => simp [differences]
  | cons w ws ih =>
    obtain ⟨a', b', ha, hb', hw, hrest⟩ := h
    intro t ht
    rcases List.mem_cons.mp ht with rfl | ht
    · intro hm
      obtain ⟨h1, h2⟩ := List.mem_filter.mp hm
      exact absurd ((Cut.mem hu).mpr ⟨hx, le_trans ha ((Cut.mem hw).mp h1).2.1, hb⟩) (of_decide_eq_true h2)
    · exact ih hw hrest (lt_of_lt_of_le hb hb') t ht

theorem differences_once {ws : List (Win δ)} (h : Sliding E a b ws) (prev : List (El δ)) :
    (differences prev ws).Pairwise fun t t' => ∀ x ∈ t.1, x ∉ t'.2.1 := by
  induction ws generalizing prev a b with
  | nil => exact List.Pairwise.nil
  | cons w ws ih =>
    obtain ⟨a', b', ha, hb', hw, hrest⟩ := h
    refine List.pairwise_cons.mpr ⟨fun t ht x hx => ?_, ih hrest _⟩
    obtain ⟨h1, _, h3⟩ := (Cut.mem hw).mp hx
    exact differences_incoming hw hrest h1 h3 t ht

/-- **C69** is false for window, delta and attenuation: an element that has been passed to `map_fn` once, successfully or
not, is never incoming again. -/
theorem C69_never_again (hp : Plain alg) {ws : List (Bool × Win δ)} (hs : Sliding E a b (ws.map (·.2)))
    (ho : InOrder (-1) (ws.map (·.2))) {os : List (List (Output β))}
    (h : (processAll alg f initial ws).run St.start = .ok os st') :
    (mapArgs st'.calls).Pairwise fun earlier later => ∀ x ∈ earlier.1, x ∉ later.2.1 := by
  rw [C66_differences hp hs ho h]
  exact differences_once hs []

end

/-- An example with a failing `map_fn` (the value 13) in the first window: the element is in the second window too, but is
not incoming there, and it is missing from the model for good. -/
theorem C69_lost_refuted :
    ∃ os st', (processAll .window Ex.fns [] [(false, ⟨2, [⟨1, 0, 7⟩, ⟨1, 1, 13⟩]⟩), (false, ⟨3, [⟨1, 0, 7⟩, ⟨1, 1, 13⟩, ⟨2, 2, 9⟩]⟩)]).run
        St.start = .ok os st' ∧
      decide (os = [[.failedMap .userError], [.result 1]] ∧ st'.model = some [9]) = true :=
  Ex.exists_of_okAnd (by decide +kernel)

/-- What is left of **C69**: with the incremental algorithm the elements are still among the elements of every later call. -/
theorem C69_incremental_partial {ws : List (Bool × Win δ)} (ho : InOrder (-1) (ws.map (·.2))) {os : List (List (Output β))}
    (h : (processAll .incremental f initial ws).run St.start = .ok os st') {j k : Nat} (hjk : j ≤ k) {w : Win δ}
    (hw : (ws.map (·.2))[j]? = some w) {t : List (El δ) × List (El δ) × List (El δ)} (ht : (mapArgs st'.calls)[k]? = some t) :
    ∀ x ∈ w.elements, x ∈ t.1 := by
  intro x hx
  obtain ⟨g1, g2⟩ := C67_incremental ho h
  have hk : k < (ws.map (·.2)).length := by
    have := (List.getElem?_eq_some_iff.mp ht).1
    rw [List.length_map]; omega
  have := (g2 k t _ ht (List.getElem?_eq_getElem hk)).1
  rw [this.mem_iff, List.mem_flatMap]
  refine ⟨w, ?_, hx⟩
  rw [List.mem_take_iff_getElem]
  obtain ⟨hj, hjw⟩ := List.getElem?_eq_some_iff.mp hw
  exact ⟨j, by omega, hjw⟩

/-! ## C70: the stored model and sampleset -/

/-- What the states should hold. -/
structure Held (M S : Type) where
  model : Option M
  sampleset : Option S

/-- A successful `map_fn` sets the model it returns; `solve_fn` may change that object, and sets the sampleset if it succeeds. -/
def Held.after (f : Fns M S δ β) (h : Held M S) : Call M S δ → Held M S
  | .mapFn m s els inc out =>
    match (f.mapFn s els inc out).run m with
    | .ok m' _ => ⟨some m', h.sampleset⟩
    | .error _ _ => h
  | .solveFn m s els inc out =>
    match (f.solveFn s els inc out).run m with
    | .ok s' m' => ⟨some m', some s'⟩
    | .error _ m' => ⟨some m', h.sampleset⟩
  | .unmapFn _ _ _ _ => h

/-- The model is passed on, attenuated by that algorithm. -/
def PassedOn (alg : Algorithm M δ) (m m' : M) : Prop :=
  match alg with
  | .attenuation step => step.run m = .ok () m'
  | _ => m' = m

/-- The arguments are what should be held. -/
def Held.Fits (alg : Algorithm M δ) (initial : M) (h : Held M S) : Call M S δ → Prop
  | .mapFn m s _ _ _ => m = h.model.getD initial ∧ s = h.sampleset
  | .solveFn m s _ _ _ => (∃ m0, h.model = some m0 ∧ PassedOn alg m0 m) ∧ s = h.sampleset
  | .unmapFn s _ _ _ => h.sampleset = some s

/-- All calls in their order. -/
def Held.FitsAll (alg : Algorithm M δ) (f : Fns M S δ β) (initial : M) : Held M S → List (Call M S δ) → Prop
  | _, [] => True
  | h, c :: cs => h.Fits alg initial c ∧ Held.FitsAll alg f initial (h.after f c) cs

theorem fitsAll_append {h : Held M S} {l l' : List (Call M S δ)} :
    Held.FitsAll alg f initial h (l ++ l') ↔
      Held.FitsAll alg f initial h l ∧ Held.FitsAll alg f initial (l.foldl (Held.after f) h) l' := by
  induction l generalizing h with
  | nil => simp [Held.FitsAll]
  | cons c l ih => simp only [List.cons_append, Held.FitsAll, List.foldl_cons, ih, and_assoc]

/-- The states hold what they should and all calls so far had the right arguments. -/
def StateFits (alg : Algorithm M δ) (f : Fns M S δ β) (initial : M) (st : St M S δ) : Prop :=
  Held.FitsAll alg f initial ⟨none, none⟩ st.calls ∧
  st.calls.foldl (Held.after f) ⟨none, none⟩ = ⟨st.model, st.sampleset⟩

theorem stateFits_call {c : Call M S δ} {st : St M S δ} (hi : StateFits alg f initial st)
    (hc : Held.Fits alg initial ⟨st.model, st.sampleset⟩ c) :
    Held.FitsAll alg f initial ⟨none, none⟩ (st.calls ++ [c]) ∧
    (st.calls ++ [c]).foldl (Held.after f) ⟨none, none⟩ = Held.after f ⟨st.model, st.sampleset⟩ c := by
  refine ⟨fitsAll_append.mpr ⟨hi.1, ?_, trivial⟩, ?_⟩
  · rw [hi.2]; exact hc
  · rw [List.foldl_append, hi.2]; rfl

/-- If `map_fn` fails, the model in the state is not what it got, or it has not been changed. -/
def Isolated (f : Fns M S δ β) (ws : List (Bool × Win δ)) : Prop :=
  (∀ w ∈ ws, w.1 = false) ∨ ∀ s els inc out m e m', (f.mapFn s els inc out).run m = .error e m' → m' = m

theorem unmap_fits {s : S} {els inc out : List (El δ)} {st : St M S δ} (hi : StateFits alg f initial st) (hs : st.sampleset = some s)
    {o : List (Output β)} (h : (unmapStage f s els inc out).run st = .ok o st') : StateFits alg f initial st' := by
  have key := stateFits_call hi (c := .unmapFn s els inc out) hs
  have hst : st' = { st with calls := st.calls ++ [.unmapFn s els inc out] } := by
    unfold unmapStage at h
    simp only [Py.run_bind, Py.run_modify] at h
    cases hf : f.unmapFn s els inc out <;> rw [hf] at h <;> cases h <;> rfl
  rw [hst]
  exact ⟨key.1, key.2⟩

theorem solve_fits {model : M} {els inc out : List (El δ)} {calls : List (Call M S δ)} {t : Option ℚ} {es : Option (List (El δ))}
    {m0 : M} {s0 : Option S} (hi : StateFits alg f initial ⟨t, es, some m0, s0, calls⟩) (hp : PassedOn alg m0 model)
    {now : Option M} {o : List (Output β)}
    (h : (solveStage f s0 model els inc out).run ⟨t, es, now, s0, calls⟩ = .ok o st') : StateFits alg f initial st' := by
  have key := stateFits_call hi (c := .solveFn model s0 els inc out) ⟨⟨m0, rfl, hp⟩, rfl⟩
  unfold solveStage at h
  simp only [Py.run_bind, Py.run_modify] at h
  cases hs : (f.solveFn s0 els inc out).run model with
  | error e m' =>
    simp only [hs, Py.run_bind, Py.run_modify, Py.run_pure] at h
    cases h
    refine ⟨key.1, key.2.trans ?_⟩
    simp only [Held.after, hs]
  | ok s m' =>
    simp only [hs, Py.run_bind, Py.run_modify] at h
    refine unmap_fits (st := ⟨t, es, some m', some s, calls ++ [.solveFn model s0 els inc out]⟩) ⟨key.1, key.2.trans ?_⟩ rfl h
    simp only [Held.after, hs]

theorem process_fits {w : Win δ} {shared : Bool} (hiso : shared = false ∨
      ∀ s els inc out m e m', (f.mapFn s els inc out).run m = .error e m' → m' = m)
    (hi : StateFits alg f initial st) {o : List (Output β)} (h : (process alg f initial shared w).run st = .ok o st') :
    StateFits alg f initial st' := by
  rw [process_run] at h
  by_cases hw : w.ts < st.ts.getD (-1)
  · rw [if_pos hw] at h; cases h; exact hi
  · rw [if_neg hw] at h
    cases hc : currentElements alg (st.elements.getD []) (sorted w.elements) with
    | error e => rw [hc] at h; cases h
    | ok els =>
      rw [hc] at h
      simp only at h
      cases ho : resolveOutgoing (st.elements.getD []) els with
      | error e => rw [ho] at h; cases h
      | ok out =>
        rw [ho] at h
        simp only at h
        generalize resolveIncoming (st.elements.getD []) els = inc at h
        have key := stateFits_call hi (c := .mapFn (st.model.getD initial) st.sampleset els inc out) ⟨rfl, rfl⟩
        unfold afterMap at h
        simp only at h
        cases hm : (f.mapFn st.sampleset els inc out).run (st.model.getD initial) with
        | error e changed =>
          simp only [hm] at h
          cases h
          refine ⟨key.1, key.2.trans ?_⟩
          simp only [Held.after, hm]
          congr 1
          rcases hiso with rfl | hiso
          · rfl
          · have := hiso _ _ _ _ _ _ _ hm
            cases shared with
            | false => rfl
            | true =>
              cases hmod : st.model with
              | none => rfl
              | some m => rw [this, hmod]; rfl
        | ok model m' =>
          simp only [hm] at h
          have hi1 : StateFits alg f initial ⟨some w.ts, some els, some model, st.sampleset,
              st.calls ++ [.mapFn (st.model.getD initial) st.sampleset els inc out]⟩ := by
            refine ⟨key.1, key.2.trans ?_⟩
            simp only [Held.after, hm]
          cases alg with
          | attenuation step =>
            unfold attenuationStage at h
            simp only at h
            cases hstep : step.run model with
            | error e m2 => simp only [hstep] at h; cases h
            | ok u m2 =>
              simp only [hstep] at h
              exact solve_fits (now := some m2) hi1 (by unfold PassedOn; exact hstep) h
          | _ => exact solve_fits (now := some model) hi1 rfl h

/-- **C70**: along any run, the model passed to `map_fn` is the one last returned (the initial one if there is none), the
sampleset is that of the last successful `solve_fn`, and so on: all calls get what is held, and the states hold it. -/
theorem C70_state_partial {ws : List (Bool × Win δ)} (hiso : Isolated f ws) {os : List (List (Output β))}
    (h : (processAll alg f initial ws).run St.start = .ok os st') :
    Held.FitsAll alg f initial ⟨none, none⟩ st'.calls ∧
    st'.calls.foldl (Held.after f) ⟨none, none⟩ = ⟨st'.model, st'.sampleset⟩ := by
  have gen : ∀ (ws : List (Bool × Win δ)) (st : St M S δ) os, Isolated f ws → StateFits alg f initial st →
      (processAll alg f initial ws).run st = .ok os st' → StateFits alg f initial st' := by
    intro ws
    induction ws with
    | nil => intro st os _ hi h; cases h; exact hi
    | cons w ws ih =>
      intro st os hiso hi h
      simp only [processAll, Py.run_bind] at h
      cases hr : (process alg f initial w.1 w.2).run st with
      | error e s1 => rw [hr] at h; cases h
      | ok o s1 =>
        rw [hr] at h
        simp only at h
        have hs1 : StateFits alg f initial s1 := by
          refine process_fits ?_ hi hr
          rcases hiso with hiso | hiso
          · exact .inl (hiso w (by simp))
          · exact .inr hiso
        have hiso' : Isolated f ws := by
          rcases hiso with hiso | hiso
          · exact .inl fun w' hw' => hiso w' (by simp [hw'])
          · exact .inr hiso
        cases hr2 : (processAll alg f initial ws).run s1 with
        | error e s2 => rw [hr2] at h; cases h
        | ok os2 s2 =>
          rw [hr2] at h
          cases h
          exact ih s1 os2 hiso' hs1 hr2
  exact gen ws St.start os hiso ⟨trivial, rfl⟩ h

/-- If the object in the state is passed, a `map_fn` that fails after a change leaves that change in the model: the last
`map_fn` gets `[7, 13]` although only `[7]` has been returned. -/
theorem C70_shared_refuted :
    ∃ os st', (processAll .delta Ex.fns [] [(true, ⟨2, [⟨1, 0, 7⟩]⟩), (true, ⟨3, [⟨2, 1, 13⟩]⟩), (true, ⟨4, [⟨3, 2, 9⟩]⟩)]).run
        St.start = .ok os st' ∧
      decide (os = [[.result 1], [.failedMap .userError], [.result 3]] ∧
        (st'.calls.filterMap fun c => match c with | .mapFn m _ _ _ _ => some m | _ => none) = [[], [7], [7, 13]]) = true :=
  Ex.exists_of_okAnd (by decide +kernel)

example : Isolated Ex.fns [(false, ⟨2, [⟨1, 0, 7⟩]⟩), (false, ⟨3, [⟨2, 1, 13⟩]⟩), (false, ⟨4, [⟨3, 2, 9⟩]⟩)] ∧
    ∃ os st', (processAll .delta Ex.fns [] [(false, ⟨2, [⟨1, 0, 7⟩]⟩), (false, ⟨3, [⟨2, 1, 13⟩]⟩), (false, ⟨4, [⟨3, 2, 9⟩]⟩)]).run
        St.start = .ok os st' ∧
      decide ((st'.calls.filterMap fun c => match c with | .mapFn m _ _ _ _ => some m | _ => none) = [[], [7], [7]]) = true :=
  ⟨.inl (by simp), Ex.exists_of_okAnd (by decide +kernel)⟩

end Sawatabi.Props
