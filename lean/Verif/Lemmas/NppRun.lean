import Verif.Lemmas.NppStream
import Verif.Lemmas.Stream
import Verif.Props.Stream
import Verif.Props.PhysicalTerms
import Verif.Props.Samplers

/-!
# Lemmas: runs of the number partitioning application
-/

namespace Sawatabi.NppStream

open Stream Props

variable {k : Nat} {P : Nat → Nat → Prop} {F : Assign → ℚ} {m : LModel} {W : List (El ℚ)}

/-! ## Conversion -/

theorem label_last (i : Nat) : (xv i).label.toList.getLast? = some ']' := by
  have : (xv i).label.toList = ('x' :: '[' :: Nat.toDigits 10 i) ++ [']'] := by simp [xv, arrayLabel_eq, idxSuffix]
  rw [this, List.getLast?_append]
  rfl

theorem pname_last (i j : Nat) : (pname i j).toList.getLast? = some ']' := by
  unfold pname
  split <;> simp only [String.toList_append, List.getLast?_append, label_last] <;> rfl

theorem Mid.noClash (h : Mid k P F m) : m.NoClash := by
  intro r hr _
  obtain ⟨i, j, _, _, hn⟩ := h.names r.name (List.mem_map.mpr ⟨r, hr, rfl⟩)
  rw [hn, pname_last]
  decide

theorem cleaned_energy (m : LModel) (ρ : PEnv) (σ : Assign) : m.cleaned.energy ρ σ = m.energy ρ σ := by
  unfold LModel.energy LModel.cleaned
  simp only [List.map_map]
  congr 1
  induction m.rows with
  | nil => rfl
  | cons r rs ih =>
    rw [List.filter_cons]
    cases hr : r.removed with
    | true => simpa [Row.term, hr] using ih
    | false =>
      simp only [hr, Bool.not_false, if_true, List.map_cons, List.sum_cons, ih]
      rfl

theorem Mid.cleaned (h : Mid k P F m) : Mid k P F m.cleaned := by
  have hrow : ∀ r ∈ m.cleaned.rows, ∃ r' ∈ m.rows, r.name = r'.name ∧ r.inter = r'.inter ∧ r.coef = r'.coef ∧ r.scale = r'.scale := by
    intro r hr
    obtain ⟨r', hr', rfl⟩ := List.mem_map.mp hr
    exact ⟨r', List.mem_of_mem_filter hr', rfl, rfl, rfl, rfl⟩
  refine ⟨h.mtype, h.constraints, h.offset, cleaned_rect h.rect, ?_, ?_, ?_, h.vars, ?_, ?_⟩
  · have : m.cleaned.names = (m.rows.filter fun r => !r.removed).map (·.name) := by
      unfold LModel.names LModel.cleaned
      simp [List.map_map, Function.comp_def]
    rw [this]
    exact h.unique.sublist (List.filter_sublist.map _)
  · intro r hr
    obtain ⟨r', hr', _, hi, _⟩ := hrow r hr
    rw [hi]
    exact h.ordered r' hr'
  · intro r hr
    obtain ⟨r', hr', _, _, hc, hs⟩ := hrow r hr
    rw [hc, hs]
    exact h.numeric r' hr'
  · intro n hn
    obtain ⟨r, hr, rfl⟩ := List.mem_map.mp hn
    obtain ⟨r', hr', e, _⟩ := hrow r hr
    rw [e]
    exact h.names _ (List.mem_map.mpr ⟨r', hr', rfl⟩)
  · intro ρ σ
    rw [cleaned_energy, h.energy]

/-- The physical model of a window. -/
structure Physic (W : List (El ℚ)) (p : Physical) : Prop where
  mtype : p.mtype = .ising
  keyed : Keyed p
  nonzero : (∀ t ∈ p.linear, t.2 ≠ 0) ∧ ∀ t ∈ p.quad, t.2 ≠ 0
  energy : ∀ σ, p.energy σ = pairs σ W

theorem Tracks.physical (h : Tracks k W m) (env : Env) (clks : Nat → Nat → ℚ) (ids : Nat → String) :
    ∃ p, (toPhysical env clks ids []).run m = .ok p m.cleaned ∧ Physic W p ∧ Tracks k W m.cleaned := by
  obtain ⟨hlt, h⟩ := h
  obtain ⟨p, m', hp⟩ := (C19_succeeds_partial (env := env) (clks := clks) (ids := ids) h.rect h.unique h.constraints).mpr (show m.Filled [] by
    refine ⟨fun r hr _ => ?_, ?_⟩
    · obtain ⟨⟨q, hq⟩, ⟨q', hq'⟩⟩ := h.numeric r hr
      rw [hq, hq']
      simp [Coef.placeholders]
    · rw [h.offset]
      simp [Coef.placeholders])
  have := C22_only_prunes_partial h.rect h.unique h.noClash hp
  subst this
  obtain ⟨h1, h2, h3, h4, h5⟩ := C26_no_duplicates h.ordered (by simp) hp
  refine ⟨p, hp, ⟨?_, toPhysical_keyed h.ordered (by simp) hp, ⟨h4, h5⟩, fun σ => ?_⟩, hlt, h.cleaned⟩
  · obtain ⟨bs, m₁, g, off, m₂, hc⟩ := toPhysical_ok hp
    have hl := hc.loop
    rw [h.constraints] at hl
    cases hl
    rw [hc.result]
    exact h.mtype
  · rw [C19_energy_partial h.rect h.constraints hp (ρ := fun _ => 0) (by intro n q hn; cases hn), h.energy]

/-! ## One window -/

/-- What a window yields if this is its physical model. -/
def outputOf (solver : Physical → Except Err (List (Sample × ℚ))) (p : Physical) (els : List (El ℚ)) : Output Report :=
  match solver p with
  | .error e => .failedSolve e
  | .ok s => match unmapping s els [] [] with
    | .error e => .failedUnmap e
    | .ok r => .result r

/-- The result of a window. -/
structure Step (solver : Physical → Except Err (List (Sample × ℚ))) (els : List (El ℚ)) (k : Nat) (t : ℚ)
    (st st' : St LModel (List (Sample × ℚ)) ℚ) (o : List (Output Report)) (m : LModel) : Prop where
  ts : st'.ts = some t
  elements : st'.elements = some els
  model : ∃ m', st'.model = some m' ∧ Tracks k els m'
  calls : solveArgs st'.calls = solveArgs st.calls ++ [(m, els)]
  tracks : Tracks k els m
  output : ∃ p, Physic els p ∧ o = [outputOf solver p els]

variable {now : ℚ} {render : El ℚ → String} {env : Env} {clks : Nat → Nat → ℚ} {ids : Nat → String}
  {solver : Physical → Except Err (List (Sample × ℚ))} {alg : Algorithm LModel ℚ} {initial : LModel}
  {st : St LModel (List (Sample × ℚ)) ℚ}

theorem step (ha : ∀ s, alg ≠ .attenuation s) {w : Win ℚ} (shared : Bool) (hts : st.ts.getD (-1) ≤ w.ts)
    {out kept inc : List (El ℚ)} (hprev : st.elements.getD [] = out ++ kept) (ht : Tracks k (out ++ kept) (st.model.getD initial))
    (hcur : currentElements alg (out ++ kept) (sorted w.elements) = .ok (kept ++ inc))
    (hout : resolveOutgoing (out ++ kept) (kept ++ inc) = .ok out) (hin : resolveIncoming (out ++ kept) (kept ++ inc) = inc)
    (hinc : Increasing (out ++ kept ++ inc)) (hk : ∀ i ∈ inc, k ≤ i.idx) (hne : kept ++ inc ≠ []) :
    ∃ o st' m, (process alg (fns now render env clks ids solver) initial shared w).run st = .ok o st' ∧
      Step solver (kept ++ inc) (grown k inc) w.ts st st' o m := by
  have hpos : inc = [] → 0 < k := by
    rintro rfl
    rw [List.append_nil] at hne
    obtain ⟨e, l, rfl⟩ := List.exists_cons_of_ne_nil hne
    exact lt_of_le_of_lt (Nat.zero_le _) (ht.1 e (by simp))
  obtain ⟨m, hm, htr⟩ := mapping_ok now render st.sampleset ht hinc hk hpos
  obtain ⟨p, hp, hph, htr'⟩ := htr.physical env clks ids
  rw [process_run, if_neg (not_lt.mpr hts), hprev, hcur]
  simp only [hout, hin]
  unfold afterMap
  simp only [fns]
  rw [hm]
  have hatt : ∀ st : St LModel (List (Sample × ℚ)) ℚ, (attenuationStage alg m).run st = .ok m st := by
    intro st
    unfold attenuationStage
    cases alg with
    | attenuation s => exact absurd rfl (ha s)
    | _ => rfl
  simp only [hatt]
  rw [solveStage_run]
  have hs : (solving env clks ids solver st.sampleset (kept ++ inc) inc out).run m =
      match solver p with
      | .ok s => .ok s m.cleaned
      | .error e => .error e m.cleaned := by
    unfold solving
    simp only [Py.run_bind, hp, Py.run_liftE]
    cases solver p <;> rfl
  simp only [hs]
  cases hsol : solver p with
  | error e =>
    refine ⟨_, _, m, rfl, rfl, rfl, ⟨_, rfl, htr'⟩, ?_, htr, p, hph, ?_⟩
    · simp [solveArgs, List.filterMap_append]
    · simp [outputOf, hsol]
  | ok s =>
    refine ⟨_, _, m, rfl, rfl, rfl, ⟨_, rfl, htr'⟩, ?_, htr, p, hph, ?_⟩
    · simp [solveArgs, List.filterMap_append]
    · unfold outputOf
      rw [hsol]
      have : unmapping s (kept ++ inc) inc out = unmapping s (kept ++ inc) [] [] := rfl
      simp only [this]
      cases unmapping s (kept ++ inc) [] [] <;> rfl

/-! ## Sliding windows -/

/-- The part of a stream in an interval. -/
def slice (E : List (El ℚ)) (a b : ℚ) : List (El ℚ) := E.filter fun x => decide (a ≤ x.ts) && decide (x.ts < b)

theorem mem_slice {E : List (El ℚ)} {a b : ℚ} {x : El ℚ} : x ∈ slice E a b ↔ x ∈ E ∧ a ≤ x.ts ∧ x.ts < b := by
  simp [slice]

theorem ordered_distinct {l : List (El ℚ)} (h : Ordered l) : Distinct l := h.imp fun {x y} hxy hc => absurd hc.2 hxy.2.ne

theorem ordered_le {l : List (El ℚ)} (h : Ordered l) : l.Pairwise fun a b => El.le a b = true :=
  h.imp fun {x y} hxy => El.le_iff.mpr (by
    rcases hxy.1.lt_or_eq with hlt | heq
    · exact .inl hlt
    · exact .inr ⟨heq, hxy.2.le⟩)

theorem cut_slice {E : List (El ℚ)} (hE : Ordered E) {a b : ℚ} {w : Win ℚ} (h : Cut E a b w) :
    sorted w.elements = slice E a b := by
  have hs : Ordered (slice E a b) := hE.sublist List.filter_sublist
  have hd : Distinct (slice E a b) := ordered_distinct hs
  have hp := ordered_le hs
  have h2 : sorted (slice E a b) = slice E a b := sorted_unique hd (List.Perm.refl _) hp
  rw [← h2]
  symm
  exact sorted_congr hd h.perm.symm

theorem split_time {l : List (El ℚ)} (h : Ordered l) (t : ℚ) :
    l = l.filter (fun x => decide (x.ts < t)) ++ l.filter (fun x => !decide (x.ts < t)) := by
  induction l with
  | nil => rfl
  | cons x l ih =>
    obtain ⟨h1, h2⟩ := List.pairwise_cons.mp h
    by_cases hx : x.ts < t
    · simp only [List.filter_cons, hx, decide_true, if_true, Bool.not_true, List.cons_append]
      simp only [Bool.false_eq_true, if_false]
      rw [← ih h2]
    · have : l.filter (fun x => decide (x.ts < t)) = [] := by
        rw [List.filter_eq_nil_iff]
        intro y hy
        have := (h1 y hy).1
        simp only [decide_eq_true_eq]
        linarith
      simp only [List.filter_cons, hx, decide_false, Bool.false_eq_true, if_false, this, List.nil_append, Bool.not_false, if_true]
      congr 1
      rw [List.filter_eq_self.mpr]
      intro y hy
      have := (h1 y hy).1
      simp only [Bool.not_eq_true', decide_eq_false_iff_not]
      linarith

theorem sliding_split {E : List (El ℚ)} (hE : Ordered E) {a b a' b' : ℚ} (haa : a ≤ a') (hbb : b ≤ b')
    (hne : slice E a' b' ≠ []) (hbound : ∀ x ∈ E, b ≤ x.ts → k ≤ x.idx) :
    ∃ out kept inc, slice E a b = out ++ kept ∧ slice E a' b' = kept ++ inc ∧ Ordered (out ++ kept ++ inc) ∧
      (∀ x ∈ out, ∀ y ∈ kept ++ inc, x.ts < y.ts) ∧
      resolveOutgoing (out ++ kept) (kept ++ inc) = .ok out ∧ resolveIncoming (out ++ kept) (kept ++ inc) = inc ∧
      (∀ i ∈ inc, k ≤ i.idx) ∧ ∀ x ∈ E, b' ≤ x.ts → grown k inc ≤ x.idx := by
  have hs : Ordered (slice E a b) := hE.sublist List.filter_sublist
  have hs' : Ordered (slice E a' b') := hE.sublist List.filter_sublist
  have h1 := split_time hs a'
  have h2 := split_time hs' b
  have hkept : (slice E a b).filter (fun x => !decide (x.ts < a')) = (slice E a' b').filter (fun x => decide (x.ts < b)) := by
    unfold slice
    rw [List.filter_filter, List.filter_filter]
    apply List.filter_congr
    intro x _
    rw [Bool.eq_iff_iff]
    simp only [Bool.and_eq_true, Bool.not_eq_true', decide_eq_true_eq, decide_eq_false_iff_not, not_lt]
    constructor
    · rintro ⟨h3, h4, h5⟩; exact ⟨h5, h3, by linarith⟩
    · rintro ⟨h3, h4, h5⟩; exact ⟨h4, by linarith, h3⟩
  rw [hkept] at h1
  set out := (slice E a b).filter fun x => decide (x.ts < a') with hout
  set kept := (slice E a' b').filter fun x => decide (x.ts < b) with hkeptd
  set inc := (slice E a' b').filter fun x => !decide (x.ts < b) with hinc
  have hmo : ∀ x ∈ out, x ∈ E ∧ x.ts < a' := by
    intro x hx
    rw [hout, List.mem_filter, mem_slice] at hx
    exact ⟨hx.1.1, by simpa using hx.2⟩
  have hmi : ∀ x ∈ inc, x ∈ E ∧ b ≤ x.ts ∧ x.ts < b' := by
    intro x hx
    rw [hinc, List.mem_filter, mem_slice] at hx
    exact ⟨hx.1.1, by simpa using hx.2, hx.1.2.2⟩
  have hoi : ∀ x ∈ out, ∀ y ∈ kept ++ inc, x.ts < y.ts := by
    intro x hx y hy
    rw [← h2] at hy
    exact lt_of_lt_of_le (hmo x hx).2 (mem_slice.mp hy).2.1
  refine ⟨out, kept, inc, h1, h2, ?_, hoi, ?_, ?_, fun i hi => hbound i (hmi i hi).1 (hmi i hi).2.1, ?_⟩
  · rw [List.append_assoc, ← h2]
    refine List.pairwise_append.mpr ⟨hs.sublist List.filter_sublist, hs', fun x hx y hy => ?_⟩
    have hlt : x.ts < y.ts := lt_of_lt_of_le (hmo x hx).2 (mem_slice.mp hy).2.1
    exact ⟨hlt.le, increasing_idx hE (hmo x hx).1 (mem_slice.mp hy).1 hlt⟩
  · rw [← h1, ← h2]
    obtain ⟨c, cs, hc⟩ := List.exists_cons_of_ne_nil hne
    rw [hc, outgoing_timed (hs.imp fun {x y} h => h.1)]
    rw [hout]
    congr 1
    apply List.filter_congr
    intro x hx
    have hcm : c ∈ slice E a' b' := by rw [hc]; simp
    rw [Bool.eq_iff_iff, decide_eq_true_eq, decide_eq_true_eq]
    constructor
    · intro hlt
      by_contra hge
      have hx' : x ∈ slice E a' b' := mem_slice.mpr ⟨(mem_slice.mp hx).1, not_lt.mp hge, (mem_slice.mp hx).2.2.trans_le hbb⟩
      rw [hc] at hx' hs'
      rcases List.mem_cons.mp hx' with rfl | hx'
      · exact absurd hlt (lt_irrefl _)
      · have := ((List.pairwise_cons.mp hs').1 x hx').1
        linarith
    · intro hlt
      exact hlt.trans_le (mem_slice.mp hcm).2.1
  · rw [← h1, ← h2]
    rcases List.eq_nil_or_concat (slice E a b) with h0 | ⟨l, last, hl⟩
    · rw [h0, incoming_nil, hinc]
      symm
      rw [List.filter_eq_self]
      intro x hx
      simp only [Bool.not_eq_true', decide_eq_false_iff_not]
      intro hlt
      have : x ∈ slice E a b := mem_slice.mpr ⟨(mem_slice.mp hx).1, haa.trans (mem_slice.mp hx).2.1, hlt⟩
      rw [h0] at this
      cases this
    · have hlast : (slice E a b).getLast? = some last := by rw [hl]; simp
      have hlm : last ∈ slice E a b := List.mem_of_getLast? hlast
      rw [incoming_timed (hs'.imp fun {x y} h => h.1) hlast, hinc]
      apply List.filter_congr
      intro x hx
      rw [Bool.eq_iff_iff]
      simp only [decide_eq_true_eq, Bool.not_eq_true', decide_eq_false_iff_not, not_lt]
      constructor
      · intro hlt
        by_contra hge
        have hx' : x ∈ slice E a b := mem_slice.mpr ⟨(mem_slice.mp hx).1, haa.trans (mem_slice.mp hx).2.1, not_le.mp hge⟩
        rw [hl, List.concat_eq_append] at hx' hs
        rcases List.mem_append.mp hx' with hx' | hx'
        · have := ((List.pairwise_append.mp hs).2.2 x hx' last (by simp)).1
          linarith
        · rw [List.mem_singleton.mp hx'] at hlt
          exact lt_irrefl _ hlt
      · intro hge
        exact (mem_slice.mp hlm).2.2.trans_le hge
  · intro x hx hge
    unfold grown
    rcases List.eq_nil_or_concat inc with h0 | ⟨l, last, hl⟩
    · rw [h0]
      exact hbound x hx (hbb.trans hge)
    · rw [hl]
      simp only [List.concat_eq_append, List.getLast?_append, List.getLast?_singleton, Option.or_some, Option.getD_some]
      have hlm := hmi last (by rw [hl]; simp)
      exact increasing_idx hE hlm.1 hx (hlm.2.2.trans_le hge)

theorem sliding_step {E : List (El ℚ)} (hE : Increasing E) {a b a' b' : ℚ} (haa : a ≤ a') (hbb : b ≤ b')
    (hne : slice E a' b' ≠ []) (hbound : ∀ x ∈ E, b ≤ x.ts → k ≤ x.idx) :
    ∃ out kept inc, slice E a b = out ++ kept ∧ slice E a' b' = kept ++ inc ∧ Increasing (out ++ kept ++ inc) ∧
      resolveOutgoing (out ++ kept) (kept ++ inc) = .ok out ∧ resolveIncoming (out ++ kept) (kept ++ inc) = inc ∧
      (∀ i ∈ inc, k ≤ i.idx) ∧ ∀ x ∈ E, b' ≤ x.ts → grown k inc ≤ x.idx := by
  obtain ⟨out, kept, inc, h1, h2, h3, h4, h5⟩ := sliding_split hE.ordered haa hbb hne hbound
  refine ⟨out, kept, inc, h1, h2, ?_, h5⟩
  have hs : Increasing (out ++ kept) := h1 ▸ hE.sublist List.filter_sublist
  have hs' : Increasing (kept ++ inc) := h2 ▸ hE.sublist List.filter_sublist
  rw [List.append_assoc] at h3 ⊢
  exact List.pairwise_append.mpr ⟨(List.pairwise_append.mp hs).1, hs',
    fun x hx y hy => ⟨h4 x hx y hy, ((List.pairwise_append.mp h3).2.2 x hx y hy).2⟩⟩

/-- What the windows of a run yield, and what the models are. -/
def Runs (solver : Physical → Except Err (List (Sample × ℚ))) (els : List (List (El ℚ))) (os : List (List (Output Report)))
    (calls : List (LModel × List (El ℚ))) : Prop :=
  List.Forall₂ (fun W o => ∃ p, Physic W p ∧ o = [outputOf solver p W]) els os ∧
  List.Forall₂ (fun W c => c.2 = W ∧ ∃ k, Tracks k W c.1) els calls

theorem sliding_run {E : List (El ℚ)} (hE : Increasing E) (halg : alg = .window ∨ alg = .delta) {ws : List (Bool × Win ℚ)}
    {a b : ℚ} (hs : Sliding E a b (ws.map (·.2))) (ho : InOrder (st.ts.getD (-1)) (ws.map (·.2)))
    (hel : st.elements.getD [] = slice E a b) (ht : Tracks k (slice E a b) (st.model.getD initial))
    (hbound : ∀ x ∈ E, b ≤ x.ts → k ≤ x.idx) :
    ∃ os st' new, (processAll alg (fns now render env clks ids solver) initial ws).run st = .ok os st' ∧
      solveArgs st'.calls = solveArgs st.calls ++ new ∧ Runs solver (ws.map fun w => sorted w.2.elements) os new := by
  induction ws generalizing st k a b with
  | nil => exact ⟨[], st, [], rfl, by simp, .nil, .nil⟩
  | cons w ws ih =>
    obtain ⟨a', b', haa, hbb, hcut, hrest⟩ := hs
    obtain ⟨ho1, ho2⟩ := ho
    have hcs := cut_slice hE.ordered hcut
    have hne : slice E a' b' ≠ [] := by
      obtain ⟨c, cs, hc⟩ := Props.Cut.ne hcut
      rw [← hcs, hc]
      simp
    obtain ⟨out, kept, inc, e1, e2, hinc, hout, hin, hk, hb'⟩ := sliding_step hE haa hbb hne hbound
    obtain ⟨o, st1, m, hr, hstep⟩ := step (now := now) (render := render) (env := env) (clks := clks) (ids := ids) (solver := solver)
      (alg := alg) (initial := initial) (st := st) (k := k)
      (by rcases halg with rfl | rfl <;> simp) w.1 ho1 (out := out) (kept := kept) (inc := inc) (by rw [hel, e1])
      (by rw [← e1]; exact ht) (by rw [← e1, hcs, e2]; rcases halg with rfl | rfl <;> rfl) hout hin hinc hk (by rw [← e2]; exact hne)
    rw [← e2] at hstep
    obtain ⟨m', hm', htr'⟩ := hstep.model
    obtain ⟨os, st2, new, hr2, hc2, hruns⟩ := ih (st := st1) (k := grown k inc) hrest (by rw [hstep.ts]; exact ho2)
      (by rw [hstep.elements]; rfl) (by rw [hm']; exact htr') hb'
    refine ⟨o :: os, st2, (m, slice E a' b') :: new, ?_, ?_, ?_⟩
    · simp only [processAll, Py.run_bind, hr, hr2, Py.run_pure]
    · rw [hc2, hstep.calls]; simp
    · simp only [List.map_cons, hcs]
      exact ⟨.cons hstep.output hruns.1, .cons ⟨rfl, _, hstep.tracks⟩ hruns.2⟩

/-- The same from the start. -/
theorem sliding_start {E : List (El ℚ)} (hE : Increasing E) (halg : alg = .window ∨ alg = .delta) {ws : List (Bool × Win ℚ)}
    {a b : ℚ} (hs : Sliding E a b (ws.map (·.2))) (ho : InOrder (-1) (ws.map (·.2))) (id : String) :
    ∃ os st', (processAll alg (fns now render env clks ids solver) (LModel.new .ising id) ws).run St.start = .ok os st' ∧
      Runs solver (ws.map fun w => sorted w.2.elements) os (solveArgs st'.calls) := by
  cases ws with
  | nil => exact ⟨[], St.start, rfl, .nil, .nil⟩
  | cons w ws =>
    obtain ⟨a', b', haa, hbb, hcut, hrest⟩ := hs
    have h0 : slice E a' a' = [] := by
      rw [slice, List.filter_eq_nil_iff]
      intro x _
      simp only [Bool.and_eq_true, decide_eq_true_eq, not_and, not_lt]
      exact fun h => h
    have hle : a' ≤ b' := by
      obtain ⟨c, cs, hc⟩ := Props.Cut.ne hcut
      have : c ∈ sorted w.2.elements := by rw [hc]; simp
      have := (Props.Cut.mem hcut).mp this
      linarith
    obtain ⟨os, st', new, h1, h2, h3⟩ := sliding_run (now := now) (render := render) (env := env) (clks := clks) (ids := ids)
      (solver := solver) (st := St.start) (initial := LModel.new .ising id) (k := 0) hE halg (ws := w :: ws) (a := a') (b := a')
      ⟨a', b', le_rfl, hle, hcut, hrest⟩ ho (by rw [h0]; rfl) (by rw [h0]; exact tracks_new id) (fun _ _ _ => Nat.zero_le _)
    refine ⟨os, st', h1, ?_⟩
    rw [h2]
    exact h3

/-! ## Incremental -/

/-- The concatenations of the first parts. -/
def growing : List (El ℚ) → List (List (El ℚ)) → List (List (El ℚ))
  | _, [] => []
  | prev, p :: ps => (prev ++ p) :: growing (prev ++ p) ps

theorem growing_length (prev : List (El ℚ)) (parts : List (List (El ℚ))) : (growing prev parts).length = parts.length := by
  induction parts generalizing prev with
  | nil => rfl
  | cons p ps ih => simp [growing, ih]

theorem growing_at {prev : List (El ℚ)} {parts : List (List (El ℚ))} {i : Nat} {W : List (El ℚ)}
    (h : (growing prev parts)[i]? = some W) : W = prev ++ (parts.take (i + 1)).flatten := by
  induction parts generalizing prev i with
  | nil => simp [growing] at h
  | cons p ps ih =>
    cases i with
    | zero => simp [growing] at h; simp [h]
    | succ i =>
      simp only [growing, List.getElem?_cons_succ] at h
      rw [ih h]
      simp

theorem sorted_increasing {l l' : List (El ℚ)} (h : Ordered l') (hp : l.Perm l') : sorted l = l' := by
  have hd : Distinct l' := ordered_distinct h
  have hp' := ordered_le h
  rw [← sorted_congr hd hp.symm]
  exact sorted_unique hd (List.Perm.refl _) hp'

theorem incremental_run {ws : List (Bool × Win ℚ)} {prev : List (El ℚ)} {parts : List (List (El ℚ))}
    (hp : List.Forall₂ (fun w part => w.2.elements.Perm part ∧ part ≠ []) ws parts) (hI : Increasing (prev ++ parts.flatten))
    (ho : InOrder (st.ts.getD (-1)) (ws.map (·.2))) (hel : st.elements.getD [] = prev) (ht : Tracks k prev (st.model.getD initial))
    (hbound : ∀ x ∈ parts.flatten, k ≤ x.idx) :
    ∃ os st' new, (processAll .incremental (fns now render env clks ids solver) initial ws).run st = .ok os st' ∧
      solveArgs st'.calls = solveArgs st.calls ++ new ∧ Runs solver (growing prev parts) os new := by
  induction hp generalizing st k prev with
  | nil => exact ⟨[], st, [], rfl, by simp, .nil, .nil⟩
  | @cons w part ws parts hw hrest ih =>
    obtain ⟨hperm, hne⟩ := hw
    obtain ⟨ho1, ho2⟩ := ho
    rw [List.flatten_cons, ← List.append_assoc] at hI
    have hI1 := (List.pairwise_append.mp hI).1
    have hI2 := List.pairwise_append.mp hI1
    have hcur : sorted (sorted w.2.elements ++ prev) = prev ++ part := by
      apply sorted_increasing (Increasing.ordered hI1)
      exact (((sorted_perm _).trans hperm).append_right prev).trans List.perm_append_comm
    have hk : ∀ i ∈ part, k ≤ i.idx := fun i hi => hbound i (by simp [hi])
    obtain ⟨c, cs, hc⟩ := List.exists_cons_of_ne_nil (show prev ++ part ≠ [] by simp [hne])
    have htimed : Timed (prev ++ part) := hI1.imp fun {x y} h => h.1.le
    have hout : resolveOutgoing prev (prev ++ part) = .ok [] := by
      rw [hc, outgoing_timed (hI2.1.imp fun {x y} h => h.1.le)]
      congr 1
      rw [List.filter_eq_nil_iff]
      intro x hx
      have hx' : x ∈ prev ++ part := by simp [hx]
      rw [hc] at hx' htimed
      simp only [decide_eq_true_eq, not_lt]
      rcases List.mem_cons.mp hx' with rfl | hx'
      · exact le_rfl
      · exact (List.pairwise_cons.mp htimed).1 x hx'
    have hin : resolveIncoming prev (prev ++ part) = part := by
      rcases List.eq_nil_or_concat prev with h0 | ⟨l, last, hl⟩
      · rw [h0, incoming_nil]; rfl
      · have hlast : prev.getLast? = some last := by rw [hl]; simp
        have hlm : last ∈ prev := List.mem_of_getLast? hlast
        rw [incoming_timed htimed hlast, List.filter_append]
        have e1 : prev.filter (fun v => decide (last.ts < v.ts)) = [] := by
          rw [List.filter_eq_nil_iff]
          intro x hx
          simp only [decide_eq_true_eq, not_lt]
          have hi := hI2.1
          rw [hl, List.concat_eq_append] at hx hi
          rcases List.mem_append.mp hx with hx | hx
          · exact ((List.pairwise_append.mp hi).2.2 x hx last (by simp)).1.le
          · rw [List.mem_singleton.mp hx]
        have e2 : part.filter (fun v => decide (last.ts < v.ts)) = part := by
          rw [List.filter_eq_self]
          intro x hx
          exact decide_eq_true (hI2.2.2 last hlm x hx).1
        rw [e1, e2]; rfl
    obtain ⟨o, st1, m, hr, hstep⟩ := step (now := now) (render := render) (env := env) (clks := clks) (ids := ids) (solver := solver)
      (alg := .incremental) (initial := initial) (st := st) (k := k) (by simp) w.1 ho1 (out := []) (kept := prev) (inc := part) hel
      ht (by show Except.ok _ = _; rw [List.nil_append, hcur]) hout hin hI1 hk (by simp [hne])
    obtain ⟨m', hm', htr'⟩ := hstep.model
    have hb' : ∀ x ∈ parts.flatten, grown k part ≤ x.idx := by
      intro x hx
      unfold grown
      rcases List.eq_nil_or_concat part with h0 | ⟨l, last, hl⟩
      · exact absurd h0 hne
      · rw [hl]
        simp only [List.concat_eq_append, List.getLast?_append, List.getLast?_singleton, Option.or_some, Option.getD_some]
        exact ((List.pairwise_append.mp hI).2.2 last (by simp [hl]) x hx).2
    obtain ⟨os, st2, new, hr2, hc2, hruns⟩ := ih (st := st1) (k := grown k part) (prev := prev ++ part) hI
      (by rw [hstep.ts]; exact ho2) (by rw [hstep.elements]; rfl) (by rw [hm']; exact htr') hb'
    refine ⟨o :: os, st2, (m, prev ++ part) :: new, ?_, ?_, ?_⟩
    · simp only [processAll, Py.run_bind, hr, hr2, Py.run_pure]
    · rw [hc2, hstep.calls]; simp
    · exact ⟨.cons hstep.output hruns.1, .cons ⟨rfl, _, hstep.tracks⟩ hruns.2⟩

/-! ## Solving a window -/

/-- The number with the label `x`, or 0. -/
def at' (W : List (El ℚ)) (x : String) : ℚ := (W.map fun e => if lab e = x then e.data else 0).sum

theorem at_none {x : String} (h : ∀ e ∈ W, lab e ≠ x) : at' W x = 0 := by
  unfold at'
  apply List.sum_eq_zero
  intro q hq
  obtain ⟨e, he, rfl⟩ := List.mem_map.mp hq
  rw [if_neg (h e he)]

theorem at_some (hW : Increasing W) {e : El ℚ} (he : e ∈ W) : at' W (lab e) = e.data := by
  induction W with
  | nil => cases he
  | cons x W ih =>
    obtain ⟨h1, h2⟩ := List.pairwise_cons.mp hW
    rcases List.mem_cons.mp he with rfl | he
    · have : at' W (lab e) = 0 := at_none fun y hy hc => absurd (lab_inj hc) (h1 y hy).2.ne'
      unfold at' at this ⊢
      simp [this]
    · have hne : lab x ≠ lab e := fun hc => absurd (lab_inj hc) (h1 e he).2.ne
      have := ih h2 he
      unfold at' at this ⊢
      simp [this, hne]

theorem at_sq (hW : Increasing W) (x : String) : (W.map fun e => if lab e = x then e.data ^ 2 else 0).sum = at' W x ^ 2 := by
  induction W with
  | nil => simp [at']
  | cons e W ih =>
    obtain ⟨h1, h2⟩ := List.pairwise_cons.mp hW
    rw [List.map_cons, List.sum_cons, ih h2]
    by_cases he : lab e = x
    · have : at' W x = 0 := at_none fun y hy hc => absurd (lab_inj (he.trans hc.symm)) (h1 y hy).2.ne
      rw [this]
      unfold at' at this ⊢
      simp [this, he]
    · unfold at'
      simp [he]

theorem signedSum_single (W : List (El ℚ)) (x : String) : signedSum (indicator [x]) W = at' W x := by
  unfold signedSum at' indicator
  congr 1
  apply List.map_congr_left
  intro e _
  simp

theorem signedSum_pair {a b : String} (hab : a ≠ b) (W : List (El ℚ)) : signedSum (indicator [a, b]) W = at' W a + at' W b := by
  induction W with
  | nil => simp [signedSum, at']
  | cons e W ih =>
    unfold signedSum at' indicator at *
    simp only [List.map_cons, List.sum_cons, ih]
    by_cases h1 : lab e = a
    · simp [h1, hab]; ring
    · by_cases h2 : lab e = b
      · simp [h2, Ne.symm hab]; ring
      · simp [h1, h2]

theorem squares_single (hW : Increasing W) (x : String) :
    (W.map fun e => (e.data * indicator [x] (lab e)) ^ 2).sum = at' W x ^ 2 := by
  rw [← at_sq hW]
  congr 1
  apply List.map_congr_left
  intro e _
  by_cases h : lab e = x <;> simp [indicator, h]

theorem squares_pair (hW : Increasing W) {a b : String} (hab : a ≠ b) :
    (W.map fun e => (e.data * indicator [a, b] (lab e)) ^ 2).sum = at' W a ^ 2 + at' W b ^ 2 := by
  rw [← at_sq hW, ← at_sq hW]
  clear hW
  induction W with
  | nil => simp
  | cons e W ih =>
    simp only [List.map_cons, List.sum_cons, ih]
    by_cases h1 : lab e = a
    · simp [indicator, h1, hab]; ring
    · by_cases h2 : lab e = b
      · simp [indicator, h2, Ne.symm hab]; ring
      · simp [indicator, h1, h2]

theorem pairs_none (W : List (El ℚ)) : pairs (indicator []) W = 0 := by
  have : ∀ e ∈ W, indicator [] (lab e) = 0 := fun e _ => by simp [indicator]
  have h := pairs_drop (l := []) this
  rw [List.append_nil] at h
  rw [h]
  simp [pairs, signedSum]

theorem pairs_single (hW : Increasing W) (x : String) : pairs (indicator [x]) W = 0 := by
  unfold pairs
  rw [signedSum_single, squares_single hW]
  ring

theorem pairs_pair (hW : Increasing W) {a b : String} (hab : a ≠ b) : pairs (indicator [a, b]) W = at' W a * at' W b := by
  unfold pairs
  rw [signedSum_pair hab, squares_pair hW hab]
  ring

variable {p : Physical}

theorem Physic.linear (hW : Increasing W) (h : Physic W p) : p.linear = [] := by
  have hc := (coefficients h.keyed.linear h.keyed.quad (fun t ht => h.keyed.ordered _ (List.mem_map.mpr ⟨t, ht, rfl⟩))).1
  cases hl : p.linear with
  | nil => rfl
  | cons t ts =>
    exfalso
    have hm : t ∈ p.linear := by rw [hl]; simp
    have h1 := hc t.1
    rw [h.energy, h.energy, pairs_none, pairs_single hW, dget_of_mem h.keyed.linear (v := t.2) hm] at h1
    exact h.nonzero.1 t hm (by simpa using h1)

theorem Physic.quad (hW : Increasing W) (h : Physic W p) {a b : String} (hab : a < b) :
    (a, b) ∈ dkeys p.quad ↔ at' W a ≠ 0 ∧ at' W b ≠ 0 := by
  have hc := (coefficients h.keyed.linear h.keyed.quad (fun t ht => h.keyed.ordered _ (List.mem_map.mpr ⟨t, ht, rfl⟩))).2 a b hab
  rw [h.energy, h.energy, h.energy, h.energy, pairs_none, pairs_single hW, pairs_single hW, pairs_pair hW hab.ne] at hc
  constructor
  · intro hk
    obtain ⟨q, hq⟩ := (dget_isSome_iff p.quad (a, b)).mpr hk
    have hm := dget_mem hq
    have hq0 := h.nonzero.2 _ hm
    rw [hq] at hc
    simp only [Option.getD_some] at hc
    constructor <;> intro h0 <;> apply hq0 <;> simp only [hc, h0] <;> ring
  · rintro ⟨h1, h2⟩
    by_contra hk
    rw [(dget_eq_none_iff p.quad (a, b)).mpr hk] at hc
    simp only [Option.getD_none] at hc
    have : at' W a * at' W b = 0 := by linarith
    rcases mul_eq_zero.mp this with h0 | h0
    · exact h1 h0
    · exact h2 h0

theorem Physic.uses (hW : Increasing W) (h : Physic W p) {x : String} :
    p.Uses x ↔ at' W x ≠ 0 ∧ ∃ y, y ≠ x ∧ at' W y ≠ 0 := by
  unfold Physical.Uses
  rw [h.linear hW]
  constructor
  · rintro (hx | ⟨⟨a, b⟩, hk, hx⟩)
    · simp [dkeys] at hx
    · have hlt := h.keyed.ordered _ hk
      obtain ⟨h1, h2⟩ := (h.quad hW hlt).mp hk
      rcases hx with rfl | rfl
      · exact ⟨h1, _, hlt.ne', h2⟩
      · exact ⟨h2, _, hlt.ne, h1⟩
  · rintro ⟨h1, y, hy, h2⟩
    refine .inr ?_
    rcases lt_or_gt_of_ne hy with hlt | hlt
    · exact ⟨(y, x), (h.quad hW hlt).mpr ⟨h2, h1⟩, .inr rfl⟩
    · exact ⟨(x, y), (h.quad hW hlt).mpr ⟨h1, h2⟩, .inl rfl⟩

/-- The labels of non-zero numbers. -/
theorem at_ne_zero (hW : Increasing W) {x : String} : at' W x ≠ 0 ↔ ∃ e ∈ W, lab e = x ∧ e.data ≠ 0 := by
  constructor
  · intro h
    by_contra hc
    apply h
    by_cases hx : ∃ e ∈ W, lab e = x
    · obtain ⟨e, he, rfl⟩ := hx
      rw [at_some hW he]
      by_contra h0
      exact hc ⟨e, he, rfl, h0⟩
    · exact at_none fun e he hl => hx ⟨e, he, hl⟩
  · rintro ⟨e, he, rfl, h0⟩
    rw [at_some hW he]
    exact h0

theorem Physic.empty (hW : Increasing W) (h : Physic W p) : Props.Empty p ↔ ¬ TwoNonzero W := by
  rw [← not_iff_not, not_not]
  constructor
  · intro hne
    unfold Props.Empty at hne
    rw [h.linear hW] at hne
    simp only [true_and] at hne
    obtain ⟨t, ts, ht⟩ := List.exists_cons_of_ne_nil hne
    have hk : t.1 ∈ dkeys p.quad := by rw [ht]; simp [dkeys]
    have hlt := h.keyed.ordered _ hk
    obtain ⟨h1, h2⟩ := (h.quad hW hlt).mp hk
    obtain ⟨e, he, hl, hd⟩ := (at_ne_zero hW).mp h1
    obtain ⟨e', he', hl', hd'⟩ := (at_ne_zero hW).mp h2
    refine ⟨e, he, e', he', fun hc => ?_, hd, hd'⟩
    rw [← hl, ← hl'] at hlt
    unfold lab at hlt
    rw [hc] at hlt
    exact lt_irrefl _ hlt
  · rintro ⟨e, he, e', he', hi, hd, hd'⟩ ⟨_, hq⟩
    have hx : p.Uses (lab e) := (h.uses hW).mpr ⟨(at_ne_zero hW).mpr ⟨e, he, rfl, hd⟩, lab e', fun hc => hi (lab_inj hc).symm,
      (at_ne_zero hW).mpr ⟨e', he', rfl, hd'⟩⟩
    unfold Physical.Uses at hx
    rw [h.linear hW, hq] at hx
    simp [dkeys] at hx

/-! ## Reading the result -/

theorem best_ok {l : List (Sample × ℚ)} (hne : l ≠ []) : ∃ r ∈ l, best l = .ok r.1 ∧ ∀ x ∈ l, r.2 ≤ x.2 := by
  cases l with
  | nil => exact absurd rfl hne
  | cons a l =>
    have key : ∀ (l : List (Sample × ℚ)) (b : Sample × ℚ), let r := l.foldl (fun b r => if r.2 < b.2 then r else b) b
        (r = b ∨ r ∈ l) ∧ r.2 ≤ b.2 ∧ ∀ x ∈ l, r.2 ≤ x.2 := by
      intro l
      induction l with
      | nil => intro b; exact ⟨.inl rfl, le_rfl, by simp⟩
      | cons c l ih =>
        intro b
        obtain ⟨h1, h2, h3⟩ := ih (if c.2 < b.2 then c else b)
        simp only [List.foldl_cons]
        by_cases hlt : c.2 < b.2
        · simp only [hlt, if_true] at h1 h2 h3 ⊢
          refine ⟨.inr (by rcases h1 with h1 | h1; rw [h1]; simp; simp [h1]), by linarith, ?_⟩
          intro x hx
          rcases List.mem_cons.mp hx with rfl | hx
          · exact h2
          · exact h3 x hx
        · simp only [hlt, if_false] at h1 h2 h3 ⊢
          refine ⟨by rcases h1 with h1 | h1; exact .inl h1; exact .inr (by simp [h1]), h2, ?_⟩
          intro x hx
          rcases List.mem_cons.mp hx with rfl | hx
          · exact h2.trans (not_lt.mp hlt)
          · exact h3 x hx
    obtain ⟨h1, h2, h3⟩ := key l a
    refine ⟨_, ?_, rfl, ?_⟩
    · rcases h1 with h1 | h1
      · rw [h1]; simp
      · simp [h1]
    · intro x hx
      rcases List.mem_cons.mp hx with rfl | hx
      · exact h2
      · exact h3 x hx

theorem key_lab (e : El ℚ) : "x[" ++ Nat.repr e.idx ++ "]" = lab e := by
  apply String.toList_inj.mp
  simp [lab, arrayLabel_eq, idxSuffix]

theorem unmap_fold {spins : Sample} {signs : List ℤ}
    (h : List.Forall₂ (fun e s => dget spins (lab e) = some s ∧ (s = 1 ∨ s = -1)) W signs) (r : (List ℚ × ℚ) × (List ℚ × ℚ)) :
    W.foldlM (unmapStep spins) r = .ok
      ((r.1.1 ++ part 1 (W.map (·.data)) signs, r.1.2 + (part 1 (W.map (·.data)) signs).sum),
       (r.2.1 ++ part (-1) (W.map (·.data)) signs, r.2.2 + (part (-1) (W.map (·.data)) signs).sum)) := by
  induction h generalizing r with
  | nil => simp [part]; rfl
  | @cons e s W signs he _ ih =>
    rw [List.foldlM_cons]
    unfold unmapStep
    rw [key_lab, he.1]
    rcases he.2 with rfl | rfl
    · simp only [if_true, Except.bind_ok]
      have := ih ((r.1.1 ++ [e.data], r.1.2 + e.data), r.2)
      unfold unmapStep at this
      rw [this]
      simp [part, add_assoc]
    · simp only [show ¬ ((-1 : ℤ) = 1) by decide, if_false, if_true, Except.bind_ok]
      have := ih (r.1, (r.2.1 ++ [e.data], r.2.2 + e.data))
      unfold unmapStep at this
      rw [this]
      simp [part, add_assoc]

theorem unmap_missing {spins : Sample} {e : El ℚ} (he : e ∈ W) (h : dget spins (lab e) = none) (r : (List ℚ × ℚ) × (List ℚ × ℚ)) :
    W.foldlM (unmapStep spins) r = .error .keyError := by
  induction W generalizing r with
  | nil => cases he
  | cons x W ih =>
    rw [List.foldlM_cons]
    rcases List.mem_cons.mp he with rfl | he
    · unfold unmapStep
      rw [key_lab, h]
      rfl
    · cases hx : unmapStep spins r x with
      | ok r' => rw [Except.bind_ok]; exact ih he r'
      | error e' =>
        unfold unmapStep at hx
        split at hx
        · cases hx; rfl
        · split at hx
          · cases hx
          · split at hx <;> cases hx

theorem parts_difference {ns : List ℚ} {signs : List ℤ} (h : Signs ns signs) :
    (part 1 ns signs).sum - (part (-1) ns signs).sum = (List.zipWith (fun (n : ℚ) (s : ℤ) => n * (s : ℚ)) ns signs).sum := by
  obtain ⟨h1, h2⟩ := h
  induction ns generalizing signs with
  | nil => simp [part]
  | cons n ns ih =>
    cases signs with
    | nil => cases h1
    | cons s signs =>
      have := ih (signs := signs) (by simpa using h1) (fun x hx => h2 x (by simp [hx]))
      rw [List.zipWith_cons_cons, List.sum_cons, ← this]
      rcases h2 s (by simp) with rfl | rfl <;> simp [part] <;> ring

end Sawatabi.NppStream
