import Verif.Props.Pipeline
import Verif.Props.TspText

/-!
# C98, C122: the texts that the travelling salesperson pipeline yields
-/

namespace Sawatabi.Props

open Stream Text NppStream Pipeline
open Tsp hiding join

section
variable {M S δ β β' : Type} {alg : Algorithm M δ} {f : Fns M S δ β} {f' : Fns M S δ β'} {g : List (El δ) → β → β'}

/-- An output whose answer is given in another form. -/
def outputMap (h : β → β') : Output β → Output β'
  | .outdated => .outdated
  | .failedMap e => .failedMap e
  | .failedSolve e => .failedSolve e
  | .failedUnmap e => .failedUnmap e
  | .result b => .result (h b)

/-- `f'` answers as `f` does, in another form that may depend on the elements of the window. -/
structure SameBut (f : Fns M S δ β) (f' : Fns M S δ β') (g : List (El δ) → β → β') : Prop where
  mapFn : f'.mapFn = f.mapFn
  solveFn : f'.solveFn = f.solveFn
  unmapFn : ∀ s els inc out, f'.unmapFn s els inc out = (f.unmapFn s els inc out).map (g els)

theorem process_sameBut (halg : alg = .window ∨ alg = .delta) (h : SameBut f f' g) {initial : M} {shared : Bool} {w : Win δ}
    {st st' : St M S δ} {os : List (Output β)} (hr : (process alg f initial shared w).run st = .ok os st') :
    (process alg f' initial shared w).run st = .ok (os.map (outputMap (g (sorted w.elements)))) st' := by
  have hcur : currentElements alg (st.elements.getD []) (sorted w.elements) = .ok (sorted w.elements) := by
    rcases halg with rfl | rfl <;> rfl
  rw [process_run, hcur] at hr ⊢
  by_cases hts : w.ts < st.ts.getD (-1)
  · rw [if_pos hts] at hr ⊢
    cases hr
    rfl
  · rw [if_neg hts] at hr ⊢
    simp only at hr ⊢
    cases ho : resolveOutgoing (st.elements.getD []) (sorted w.elements) with
    | error e => rw [ho] at hr; cases hr
    | ok out =>
      rw [ho] at hr
      simp only at hr ⊢
      unfold afterMap at hr ⊢
      rw [h.mapFn]
      simp only at hr ⊢
      cases hm : (f.mapFn st.sampleset (sorted w.elements) (resolveIncoming (st.elements.getD []) (sorted w.elements)) out).run
          (st.model.getD initial) with
      | error e c =>
        rw [hm] at hr
        cases hr
        rfl
      | ok model c =>
        rw [hm] at hr
        simp only at hr ⊢
        split at hr
        · cases hr
        · next model' st2 hatt =>
          rw [solveStage_run] at hr ⊢
          rw [h.solveFn]
          cases hs : (f.solveFn st.sampleset (sorted w.elements) (resolveIncoming (st.elements.getD []) (sorted w.elements)) out).run
              model' with
          | error e c => rw [hs] at hr; cases hr; rfl
          | ok s c =>
            rw [hs] at hr
            simp only at hr ⊢
            rw [h.unmapFn]
            cases hu : f.unmapFn s (sorted w.elements) (resolveIncoming (st.elements.getD []) (sorted w.elements)) out with
            | error e => rw [hu] at hr; cases hr; rfl
            | ok b => rw [hu] at hr; cases hr; rfl

/-- The answers in the other form, for all windows. -/
theorem processAll_sameBut (halg : alg = .window ∨ alg = .delta) (h : SameBut f f' g) {initial : M} {ws : List (Bool × Win δ)}
    {st st' : St M S δ} {os : List (List (Output β))} (hr : (processAll alg f initial ws).run st = .ok os st') :
    ∃ os', (processAll alg f' initial ws).run st = .ok os' st' ∧ List.Forall₂ (fun (w : Bool × Win δ) (oo : List (Output β) × _) =>
      oo.2 = oo.1.map (outputMap (g (sorted w.2.elements)))) ws (os.zip os') ∧ os'.length = os.length := by
  induction ws generalizing st os with
  | nil => cases hr; exact ⟨[], rfl, .nil, rfl⟩
  | cons w ws ih =>
    simp only [processAll, Py.run_bind] at hr ⊢
    cases h1 : (process alg f initial w.1 w.2).run st with
    | error e t => rw [h1] at hr; cases hr
    | ok o t =>
      rw [h1] at hr
      simp only at hr
      cases h2 : (processAll alg f initial ws).run t with
      | error e t => rw [h2] at hr; cases hr
      | ok os₁ t₁ =>
        rw [h2] at hr
        simp only [Py.run_pure, Res.ok.injEq] at hr
        obtain ⟨rfl, rfl⟩ := hr
        obtain ⟨os', h3, h4, h5⟩ := ih h2
        rw [process_sameBut halg h h1]
        simp only [h3, Py.run_pure]
        exact ⟨_, rfl, .cons rfl h4, by simp [h5]⟩

end

variable {κ : Type} {dist : κ → κ → ℚ} {compile : Tsp.HExpr → PModel} {newId : String} {now : ℚ} {env : Env}
  {clks : Nat → Nat → ℚ} {ids : Nat → String} {id : String}

theorem textFns_same (showData : List (City κ) → List Char) (solver : Physical → Except Err (List (Sample × ℚ))) :
    SameBut (Tsp.fns dist compile newId now env clks ids solver) (Tsp.textFns showData dist compile newId now env clks ids solver)
      fun els order => tourText (showData (els.map (·.data))) (order.map String.toList) := by
  refine ⟨rfl, rfl, fun s els inc out => ?_⟩
  simp only [Tsp.textFns, Tsp.fns, unmappingText]
  cases unmapping s els inc out <;> rfl

/-- Somebody who reads the text takes the third line for the data and the last line for the cities. -/
structure Reads (text dicts : List Char) (order : List (List Char)) : Prop where
  lines : text.splitOn '\n' =
    [[], "INPUT -->".toList, ' ' :: ' ' :: dicts, "SOLUTION ==>".toList, ' ' :: ' ' :: List.intercalate " -> ".toList order]
  names : Plainly order

/-- **C98** with the texts: each window yields one text, which has the data of the window and names its cities in the order of a
shortest round trip, if there is one shorter than 30. If the names of the cities are not empty and have neither `>` nor line
ends, and what `str` makes of the data has no line ends, everybody reads this from the text. -/
theorem C98_text_partial {alg : Algorithm LModel (City κ)} (halg : alg = .window ∨ alg = .delta) (hc : CompilesAll compile)
    (hd : ∀ a b, 0 ≤ dist a b) (hself : ∀ a, dist a a = 0) {wi : Windowing} (hv : wi.Valid) (cities : List (City κ))
    (showData : List (City κ) → List Char) :
    ∃ els, Pipeline.indexed cities = .ok els ∧ els = timed cities ∧ ∀ ds, Delivers (windows wi els) ds →
      ∃ os st', (processAll alg (Tsp.textFns showData dist compile newId now env clks ids exactSolver) (LModel.new .qubo id) ds).run
          St.start = .ok os st' ∧
        List.Forall₂ (fun w o => ∃ els text, els.Perm w.elements ∧ o = [.result text] ∧
          (ShortTour dist els → (∀ a ∈ els, '\n' ∉ a.data.name.toList ∧ '>' ∉ a.data.name.toList ∧ a.data.name ≠ "") →
            '\n' ∉ showData (els.map (·.data)) →
            (∃ dicts order, Reads text dicts order) ∧ ∀ dicts order, Reads text dicts order →
              dicts = showData (els.map (·.data)) ∧ ∃ t names, Shortest els.length (distances dist els) t ∧
                Names els t names ∧ order = names.map String.toList)) (windows wi els) os := by
  refine ⟨_, indexed_eq cities, rfl, fun ds hdel => ?_⟩
  obtain ⟨ho, hne⟩ := delivered_order hv (timed_nonneg _) hdel
  obtain ⟨os, st', new, h1, -, h3, -⟩ := tsp_run (dist := dist) (newId := newId) (now := now) (env := env) (clks := clks)
    (ids := ids) (solver := exactSolver) (initial := LModel.new .qubo id) (st := St.start) halg hc rfl ho hne
  obtain ⟨os', g1, g2, g3⟩ := processAll_sameBut halg (textFns_same showData exactSolver) h1
  refine ⟨os', st', g1, forall₂_trans hdel (S := fun w o => ∃ els text, els.Perm w.2.elements ∧ o = [.result text] ∧
    (ShortTour dist els → (∀ a ∈ els, '\n' ∉ a.data.name.toList ∧ '>' ∉ a.data.name.toList ∧ a.data.name ≠ "") →
      '\n' ∉ showData (els.map (·.data)) →
      (∃ dicts order, Reads text dicts order) ∧ ∀ dicts order, Reads text dicts order →
        dicts = showData (els.map (·.data)) ∧ ∃ t names, Shortest els.length (distances dist els) t ∧
          Names els t names ∧ order = names.map String.toList)) ?_ ?_⟩
  · clear h1 g1 ho hdel
    induction h3 generalizing os' with
    | nil =>
      cases os' with
      | nil => exact .nil
      | cons => cases g3
    | @cons w o ws os hwo _ ih =>
      cases os' with
      | nil => cases g3
      | cons o' os' =>
        cases g2 with
        | cons e g2 =>
        refine .cons ?_ (ih (fun w hw => hne w (by simp [hw])) os' g2 (by simpa using g3))
        obtain ⟨p, hr, rfl⟩ := hwo
        simp only at e
        have hz : ∀ j < (sorted w.2.elements).length, distances dist (sorted w.2.elements) j j = 0 := by
          intro j hj
          unfold distances
          rw [List.getElem?_eq_getElem hj]
          exact hself _
        have hpos : 0 < (sorted w.2.elements).length := by
          rw [(sorted_perm w.2.elements).length_eq]
          exact List.length_pos_iff.mpr (hne w (by simp))
        obtain ⟨res, s, e1, e2, X, e3, e4, e5⟩ := hr.solved hpos hz
        simp only [tspOutput, e1, C89_reading e2 e4 [] [], List.map_cons, List.map_nil, outputMap] at e
        refine ⟨sorted w.2.elements, _, sorted_perm _, e, fun ⟨t₀, ht₀, hlt⟩ hnames hdata => ?_⟩
        obtain ⟨t, ht, hf⟩ := ground (fun i _ j _ => distances_nonneg hd _ i j) ht₀ (by linarith) (by linarith) e3 e5
        have hN := C89_tour ht.1 hf
        generalize hS : selected (sorted w.2.elements) X = S at hN
        have hmem : ∀ a ∈ S.map String.toList, '\n' ∉ a ∧ '>' ∉ a ∧ a ≠ [] := by
          intro a ha
          obtain ⟨n, hn, rfl⟩ := List.mem_map.mp ha
          have : ∃ el ∈ sorted w.2.elements, el.data.name = n := by
            have hn' : some n ∈ S.map some := List.mem_map_of_mem hn
            rw [hN] at hn'
            obtain ⟨i, _, hi⟩ := List.mem_map.mp hn'
            cases hx : (sorted w.2.elements)[i]? with
            | none => rw [hx] at hi; cases hi
            | some el =>
              rw [hx] at hi
              exact ⟨el, List.mem_of_getElem? hx, by simpa using hi⟩
          obtain ⟨el, hel, rfl⟩ := this
          obtain ⟨k1, k2, k3⟩ := hnames el hel
          exact ⟨k1, k2, fun h0 => k3 (String.ext h0)⟩
        have hp : Plainly (S.map String.toList) := fun a ha => ⟨(hmem a ha).2.2, (hmem a ha).2.1⟩
        have hlines := C122_lines hdata fun a ha => (hmem a ha).1
        refine ⟨⟨_, _, hlines, hp⟩, fun dicts order hrd => ?_⟩
        have := hrd.lines
        rw [hlines] at this
        simp only [List.cons.injEq, and_true, true_and] at this
        refine ⟨this.1.symm, t, S, ht, hN, ?_⟩
        exact (arrows_inj hp hrd.names (by rw [join_eq, join_eq]; exact this.2)).symm
  · rintro w d o ⟨_, hp⟩ ⟨els, text, h3, h4⟩
    exact ⟨els, text, h3.trans hp, h4⟩

/-- The names of two cities can be read from the text, and it has the data. -/
example : Reads (tourText "[A, B]".toList ["A".toList, "B".toList]) "[A, B]".toList ["A".toList, "B".toList] :=
  ⟨C122_lines (by decide) (by decide), by unfold Plainly; decide⟩

/-- The other hypotheses: a distance, valid windows, and cities with a short tour. -/
example : (∀ a b : Nat, 0 ≤ (if a = b then (0 : ℚ) else 1)) ∧ (Windowing.fixed 2).Valid ∧
    ShortTour (fun a b : Nat => if a = b then 0 else 1) [⟨0, 0, ⟨"A", 0⟩⟩, ⟨1, 1, ⟨"B", 1⟩⟩] ∧
    ∀ a ∈ ([⟨0, 0, ⟨"A", 0⟩⟩, ⟨1, 1, ⟨"B", 1⟩⟩] : List (El (City Nat))),
      '\n' ∉ a.data.name.toList ∧ '>' ∉ a.data.name.toList ∧ a.data.name ≠ "" := by
  refine ⟨fun a b => by split <;> norm_num, by norm_num [Windowing.Valid], ⟨[0, 1], by unfold Tour; decide, by decide +kernel⟩, by decide⟩

end Sawatabi.Props
