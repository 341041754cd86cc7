import Verif.Lemmas.NppAttn
import Verif.Props.NppStream

/-!
# C95: number partitioning over a stream with attenuation
-/

namespace Sawatabi.NppStream

open Stream Props

variable {k : Nat} {m : LModel} {W : List (El ℚ)} {now : ℚ} {render : El ℚ → String} {env env' : Env}
  {clks clks' : Nat → Nat → ℚ} {ids ids' : Nat → String} {ms : ℚ} {solver : Physical → Except Err (List (Sample × ℚ))}
  {initial : LModel} {st : St LModel (List (Sample × ℚ)) ℚ}

theorem ATracks.cleaned (h : ATracks k W m) : ATracks k W m.cleaned := by
  obtain ⟨hlt, ⟨F, hmid⟩, hled⟩ := h
  refine ⟨hlt, ⟨F, hmid.cleaned⟩, ?_⟩
  obtain ⟨X, x1, x2, x3, x4⟩ := hled.clean
  refine ⟨X.map (·.2), by rw [x3]; simp, ?_, ?_⟩
  · rcases x4 with x4 | ⟨x4, x5⟩
    · left
      rw [x4, List.map_map]
      rfl
    · right
      rw [x3, x4]
      exact ⟨rfl, x5⟩
  · have : alive m.cleaned.rows (X.map (·.2)) = X := by
      unfold alive
      rw [x3, List.zip_map', List.filter_eq_self.mpr]
      · simp
      · intro x hx
        obtain ⟨y, hy, rfl⟩ := List.mem_map.mp hx
        simp [x2 y hy]
    rw [this]
    exact x1

/-- The result of a window. -/
structure AStep (solver : Physical → Except Err (List (Sample × ℚ))) (ms : ℚ) (els : List (El ℚ)) (k : Nat) (t : ℚ)
    (st st' : St LModel (List (Sample × ℚ)) ℚ) (o : List (Output Report)) (m : LModel) : Prop where
  ts : st'.ts = some t
  elements : st'.elements = some els
  model : ∃ m', st'.model = some m' ∧ ATracks k els m'
  calls : solveArgs st'.calls = solveArgs st.calls ++ [(m, els)]
  energy : ∀ ρ σ, m.energy ρ σ = weighted (weight ms els) σ els
  output : ∃ p, PhysicE (fun σ => weighted (weight ms els) σ els) p ∧ o = [outputOf solver p els]

theorem astep {w : Win ℚ} (shared : Bool) (hts : st.ts.getD (-1) ≤ w.ts)
    {out kept inc : List (El ℚ)} (hprev : st.elements.getD [] = out ++ kept) (ht : ATracks k (out ++ kept) (st.model.getD initial))
    (hcur : sorted w.elements = kept ++ inc)
    (hout : resolveOutgoing (out ++ kept) (kept ++ inc) = .ok out) (hin : resolveIncoming (out ++ kept) (kept ++ inc) = inc)
    (hinc : Increasing (out ++ kept ++ inc)) (hk : ∀ i ∈ inc, k ≤ i.idx) (hne : kept ++ inc ≠ []) :
    (2 ≤ (kept ++ inc).length → ∃ o st' m,
      (process (attenuation env' clks' ids' ms) (fns now render env clks ids solver) initial shared w).run st = .ok o st' ∧
      AStep solver ms (kept ++ inc) (grown k inc) w.ts st st' o m) ∧
    ((kept ++ inc).length < 2 → ∃ e st', (e = .keyError ∨ e = .valueError) ∧
      (process (attenuation env' clks' ids' ms) (fns now render env clks ids solver) initial shared w).run st = .error e st') := by
  have hpos : inc = [] → 0 < k := by
    rintro rfl
    rw [List.append_nil] at hne
    obtain ⟨e, l, rfl⟩ := List.exists_cons_of_ne_nil hne
    exact lt_of_le_of_lt (Nat.zero_le _) (ht.1 e (by simp))
  obtain ⟨m, hm, htr⟩ := amapping_ok now render st.sampleset ht hinc hk hpos
  have hW : Increasing (kept ++ inc) := by
    rw [List.append_assoc] at hinc
    exact (List.pairwise_append.mp hinc).2.1
  have hstart : ∀ r, afterMap (attenuation env' clks' ids' ms) (fns now render env clks ids solver) initial shared st w.ts
      (kept ++ inc) inc out = r →
      (process (attenuation env' clks' ids' ms) (fns now render env clks ids solver) initial shared w).run st = r := by
    rintro r rfl
    rw [process_run, if_neg (not_lt.mpr hts), hprev, show currentElements (attenuation env' clks' ids' ms) (out ++ kept)
      (sorted w.elements) = .ok (kept ++ inc) by rw [hcur]; rfl]
    simp only [hout, hin]
  constructor
  · intro h2
    obtain ⟨m₂, hatt, htr2, hmid2⟩ := attenuate_ok (env := env') (clks := clks') (ids := ids') (ms := ms) htr hW h2
    obtain ⟨p, hp, hph⟩ := hmid2.physical env clks ids
    have htr' := htr2.cleaned
    have hstage : ∀ st : St LModel (List (Sample × ℚ)) ℚ, (attenuationStage (attenuation env' clks' ids' ms) m).run st =
        .ok m₂ { st with model := some m₂ } := by
      intro st
      unfold attenuationStage attenuation
      simp only
      rw [show (attenuate env' clks' ids' "attributes.attn_ts" ms).run m = _ from hatt]
      rfl
    have hs : (solving env clks ids solver st.sampleset (kept ++ inc) inc out).run m₂ =
        match solver p with
        | .ok s => .ok s m₂.cleaned
        | .error e => .error e m₂.cleaned := by
      unfold solving
      simp only [Py.run_bind, hp, Py.run_liftE]
      cases solver p <;> rfl
    cases hsol : solver p with
    | error e =>
      rw [hsol] at hs
      rw [hstart _ rfl]
      unfold afterMap
      simp only [fns]
      rw [hm]
      simp only [hstage]
      rw [solveStage_run]
      simp only [hs]
      refine ⟨_, _, m₂, rfl, ?_⟩
      · refine ⟨rfl, rfl, ⟨_, rfl, htr'⟩, ?_, hmid2.energy, p, hph, ?_⟩
        · simp [solveArgs, List.filterMap_append]
        · simp [outputOf, hsol]
    | ok s =>
      rw [hsol] at hs
      rw [hstart _ rfl]
      unfold afterMap
      simp only [fns]
      rw [hm]
      simp only [hstage]
      rw [solveStage_run]
      simp only [hs]
      refine ⟨_, _, m₂, rfl, ?_⟩
      · refine ⟨rfl, rfl, ⟨_, rfl, htr'⟩, ?_, hmid2.energy, p, hph, ?_⟩
        · simp [solveArgs, List.filterMap_append]
        · unfold outputOf
          rw [hsol]
          have : unmapping s (kept ++ inc) inc out = unmapping s (kept ++ inc) [] [] := rfl
          simp only [this]
          cases unmapping s (kept ++ inc) [] [] <;> rfl
  · intro h2
    obtain ⟨e, he, hatt⟩ := attenuate_short (env := env') (clks := clks') (ids := ids') (ms := ms) htr h2
    rw [hstart _ rfl]
    unfold afterMap
    simp only [fns]
    rw [hm]
    simp only [attenuationStage, attenuation]
    rw [show (attenuate env' clks' ids' "attributes.attn_ts" ms).run m = _ from hatt]
    exact ⟨e, _, he, rfl⟩

/-- What the windows of a run yield, and the energies of the models. -/
def ARuns (solver : Physical → Except Err (List (Sample × ℚ))) (ms : ℚ) (els : List (List (El ℚ)))
    (os : List (List (Output Report))) (calls : List (LModel × List (El ℚ))) : Prop :=
  List.Forall₂ (fun W o => ∃ p, PhysicE (fun σ => weighted (weight ms W) σ W) p ∧ o = [outputOf solver p W]) els os ∧
  List.Forall₂ (fun W c => c.2 = W ∧ ∀ ρ σ, c.1.energy ρ σ = weighted (weight ms W) σ W) els calls

theorem attenuation_run {E : List (El ℚ)} (hE : Increasing E) {ws : List (Bool × Win ℚ)}
    {a b : ℚ} (hs : Sliding E a b (ws.map (·.2))) (ho : InOrder (st.ts.getD (-1)) (ws.map (·.2)))
    (hel : st.elements.getD [] = slice E a b) (ht : ATracks k (slice E a b) (st.model.getD initial))
    (hbound : ∀ x ∈ E, b ≤ x.ts → k ≤ x.idx) :
    ((∀ w ∈ ws, 2 ≤ w.2.elements.length) → ∃ os st' new,
      (processAll (attenuation env' clks' ids' ms) (fns now render env clks ids solver) initial ws).run st = .ok os st' ∧
      solveArgs st'.calls = solveArgs st.calls ++ new ∧ ARuns solver ms (ws.map fun w => sorted w.2.elements) os new) ∧
    ((∃ w ∈ ws, w.2.elements.length < 2) → ∃ e st', (e = .keyError ∨ e = .valueError) ∧
      (processAll (attenuation env' clks' ids' ms) (fns now render env clks ids solver) initial ws).run st = .error e st') := by
  induction ws generalizing st k a b with
  | nil => exact ⟨fun _ => ⟨[], st, [], rfl, by simp, .nil, .nil⟩, fun h => by obtain ⟨w, hw, _⟩ := h; cases hw⟩
  | cons w ws ih =>
    obtain ⟨a', b', haa, hbb, hcut, hrest⟩ := hs
    obtain ⟨ho1, ho2⟩ := ho
    have hcs := cut_slice hE.ordered hcut
    have hlen : (slice E a' b').length = w.2.elements.length := by
      rw [← hcs]
      exact (sorted_perm _).length_eq
    have hne : slice E a' b' ≠ [] := by
      obtain ⟨c, cs, hc⟩ := Props.Cut.ne hcut
      rw [← hcs, hc]
      simp
    obtain ⟨out, kept, inc, e1, e2, hinc, hout, hin, hk, hb'⟩ := sliding_step hE haa hbb hne hbound
    obtain ⟨s1, s2⟩ := astep (now := now) (render := render) (env := env) (clks := clks) (ids := ids) (solver := solver)
      (env' := env') (clks' := clks') (ids' := ids') (ms := ms) (initial := initial) (st := st) (k := k)
      w.1 ho1 (out := out) (kept := kept) (inc := inc) (by rw [hel, e1])
      (by rw [← e1]; exact ht) (by rw [hcs, e2]) hout hin hinc hk (by rw [← e2]; exact hne)
    rw [← e2, hlen] at s1 s2
    by_cases h2 : 2 ≤ w.2.elements.length
    · obtain ⟨o, st1, m, hr, hstep⟩ := s1 h2
      obtain ⟨m', hm', htr'⟩ := hstep.model
      obtain ⟨t1, t2⟩ := ih (st := st1) (k := grown k inc) hrest (by rw [hstep.ts]; exact ho2)
        (by rw [hstep.elements]; rfl) (by rw [hm']; exact htr') hb'
      constructor
      · intro hall
        obtain ⟨os, st2, new, hr2, hc2, hruns⟩ := t1 fun x hx => hall x (by simp [hx])
        refine ⟨o :: os, st2, (m, slice E a' b') :: new, ?_, ?_, ?_⟩
        · simp only [processAll, Py.run_bind, hr, hr2, Py.run_pure]
        · rw [hc2, hstep.calls]; simp
        · simp only [List.map_cons, hcs]
          exact ⟨.cons hstep.output hruns.1, .cons ⟨rfl, hstep.energy⟩ hruns.2⟩
      · rintro ⟨x, hx, hx2⟩
        rcases List.mem_cons.mp hx with rfl | hx
        · omega
        · obtain ⟨e, st2, he, hr2⟩ := t2 ⟨x, hx, hx2⟩
          exact ⟨e, st2, he, by simp only [processAll, Py.run_bind, hr, hr2]⟩
    · constructor
      · intro hall
        exact absurd (hall w (by simp)) h2
      · intro _
        obtain ⟨e, st1, he, hr⟩ := s2 (not_le.mp h2)
        exact ⟨e, st1, he, by simp only [processAll, Py.run_bind, hr]⟩

/-- The same from the start. -/
theorem attenuation_start {E : List (El ℚ)} (hE : Increasing E) {ws : List (Bool × Win ℚ)}
    {a b : ℚ} (hs : Sliding E a b (ws.map (·.2))) (ho : InOrder (-1) (ws.map (·.2))) (id : String) :
    ((∀ w ∈ ws, 2 ≤ w.2.elements.length) → ∃ os st',
      (processAll (attenuation env' clks' ids' ms) (fns now render env clks ids solver) (LModel.new .ising id) ws).run St.start =
        .ok os st' ∧ ARuns solver ms (ws.map fun w => sorted w.2.elements) os (solveArgs st'.calls)) ∧
    ((∃ w ∈ ws, w.2.elements.length < 2) → ∃ e st', (e = .keyError ∨ e = .valueError) ∧
      (processAll (attenuation env' clks' ids' ms) (fns now render env clks ids solver) (LModel.new .ising id) ws).run St.start =
        .error e st') := by
  cases ws with
  | nil => exact ⟨fun _ => ⟨[], St.start, rfl, .nil, .nil⟩, fun h => by obtain ⟨w, hw, _⟩ := h; cases hw⟩
  | cons w ws =>
    obtain ⟨a', b', haa, hbb, hcut, hrest⟩ := hs
    have h0 : slice E a' a' = [] := by
      rw [slice, List.filter_eq_nil_iff]
      intro x _
      simp only [Bool.and_eq_true, decide_eq_true_eq, not_and, not_lt]
      exact fun h => h
    have hle : a' ≤ b' := by
      obtain ⟨c, cs, hc⟩ := Props.Cut.ne hcut
      have : c ∈ sorted w.2.elements := by rw [hc]; simp
      have := (Props.Cut.mem hcut).mp this
      linarith
    obtain ⟨t1, t2⟩ := attenuation_run (now := now) (render := render) (env := env) (clks := clks) (ids := ids)
      (env' := env') (clks' := clks') (ids' := ids') (ms := ms)
      (solver := solver) (st := St.start) (initial := LModel.new .ising id) (k := 0) hE (ws := w :: ws) (a := a') (b := a')
      ⟨a', b', le_rfl, hle, hcut, hrest⟩ ho (by rw [h0]; rfl) (by rw [h0]; exact atracks_new id) (fun _ _ _ => Nat.zero_le _)
    refine ⟨fun hall => ?_, t2⟩
    obtain ⟨os, st', new, h1, h2, h3⟩ := t1 hall
    refine ⟨os, st', h1, ?_⟩
    rw [h2]
    exact h3

/-! ## Solving a window -/

variable {p : Physical} {w : ℚ → ℚ}

theorem weighted_congr {σ τ : Assign} (h : ∀ e ∈ W, σ (lab e) = τ (lab e)) : weighted w σ W = weighted w τ W := by
  induction W with
  | nil => rfl
  | cons e W ih =>
    rw [weighted, weighted, ih fun x hx => h x (by simp [hx]), h e (by simp)]
    congr 2
    unfold signedSum
    rw [List.map_congr_left fun x hx => by rw [h x (by simp [hx])]]

theorem weighted_none (w : ℚ → ℚ) (W : List (El ℚ)) : weighted w (indicator []) W = 0 := by
  induction W with
  | nil => rfl
  | cons e W ih => simp [weighted, ih, indicator]

theorem weighted_single (hW : Increasing W) (x : String) : weighted w (indicator [x]) W = 0 := by
  induction W with
  | nil => rfl
  | cons e W ih =>
    obtain ⟨h1, h2⟩ := List.pairwise_cons.mp hW
    rw [weighted, ih h2, signedSum_single]
    by_cases he : lab e = x
    · have : at' W x = 0 := at_none fun y hy hc => absurd (lab_inj (he.trans hc.symm)) (h1 y hy).2.ne
      rw [this]
      ring
    · simp [indicator, he]

theorem at_cons (e : El ℚ) (W : List (El ℚ)) (x : String) : at' (e :: W) x = (if lab e = x then e.data else 0) + at' W x := by
  simp [at']

theorem weighted_pair (hW : Increasing W) (hw : ∀ e ∈ W.dropLast, w e.ts ≠ 0) {a b : String} (hab : a ≠ b) :
    ∃ c ≠ 0, weighted w (indicator [a, b]) W = c * (at' W a * at' W b) := by
  induction W with
  | nil => exact ⟨1, one_ne_zero, by simp [weighted, at']⟩
  | cons e W ih =>
    obtain ⟨h1, h2⟩ := List.pairwise_cons.mp hW
    obtain ⟨c, hc, hE⟩ := ih h2 (by
      intro x hx
      apply hw
      cases W with
      | nil => cases hx
      | cons y W => simp [List.dropLast_cons_of_ne_nil, hx])
    have hwe : W ≠ [] → w e.ts ≠ 0 := by
      intro hne
      apply hw
      rw [List.dropLast_cons_of_ne_nil hne]
      simp
    have hempty : W = [] → ∀ x, at' W x = 0 := by
      rintro rfl x
      rfl
    rw [weighted, hE, signedSum_pair hab, at_cons, at_cons]
    by_cases hea : lab e = a
    · have hz : at' W a = 0 := at_none fun y hy hl => absurd (lab_inj (hea.trans hl.symm)) (h1 y hy).2.ne
      by_cases hWn : W = []
      · exact ⟨1, one_ne_zero, by rw [hempty hWn, hempty hWn]; simp [hea, hab]⟩
      · refine ⟨w e.ts, hwe hWn, ?_⟩
        rw [hz]
        simp [hea, hab, indicator]
        ring
    · by_cases heb : lab e = b
      · have hz : at' W b = 0 := at_none fun y hy hl => absurd (lab_inj (heb.trans hl.symm)) (h1 y hy).2.ne
        by_cases hWn : W = []
        · exact ⟨1, one_ne_zero, by rw [hempty hWn, hempty hWn]; simp [heb, Ne.symm hab]⟩
        · refine ⟨w e.ts, hwe hWn, ?_⟩
          rw [hz]
          simp [heb, Ne.symm hab, indicator]
          ring
      · exact ⟨c, hc, by simp [hea, heb, indicator]⟩

theorem PhysicE.linear_nil (hW : Increasing W) (h : PhysicE (fun σ => weighted w σ W) p) : p.linear = [] := by
  have hc := (coefficients h.keyed.linear h.keyed.quad (fun t ht => h.keyed.ordered _ (List.mem_map.mpr ⟨t, ht, rfl⟩))).1
  cases hl : p.linear with
  | nil => rfl
  | cons t ts =>
    exfalso
    have hm : t ∈ p.linear := by rw [hl]; simp
    have h1 := hc t.1
    rw [h.energy, h.energy, weighted_none, weighted_single hW, dget_of_mem h.keyed.linear (v := t.2) hm] at h1
    exact h.nonzero.1 t hm (by simpa using h1)

theorem PhysicE.quad_iff (hW : Increasing W) (hw : ∀ e ∈ W.dropLast, w e.ts ≠ 0) (h : PhysicE (fun σ => weighted w σ W) p)
    {a b : String} (hab : a < b) : (a, b) ∈ dkeys p.quad ↔ at' W a ≠ 0 ∧ at' W b ≠ 0 := by
  have hc := (coefficients h.keyed.linear h.keyed.quad (fun t ht => h.keyed.ordered _ (List.mem_map.mpr ⟨t, ht, rfl⟩))).2 a b hab
  obtain ⟨c, hc0, hce⟩ := weighted_pair hW hw hab.ne
  rw [h.energy, h.energy, h.energy, h.energy, weighted_none, weighted_single hW, weighted_single hW, hce] at hc
  constructor
  · intro hk
    obtain ⟨q, hq⟩ := (dget_isSome_iff p.quad (a, b)).mpr hk
    have hm := dget_mem hq
    have hq0 := h.nonzero.2 _ hm
    rw [hq] at hc
    simp only [Option.getD_some] at hc
    constructor <;> intro h0 <;> apply hq0 <;> simp only [hc, h0] <;> ring
  · rintro ⟨h1, h2⟩
    by_contra hk
    rw [(dget_eq_none_iff p.quad (a, b)).mpr hk] at hc
    simp only [Option.getD_none] at hc
    have : c * (at' W a * at' W b) = 0 := by linarith
    exact mul_ne_zero hc0 (mul_ne_zero h1 h2) this

theorem PhysicE.uses_iff (hW : Increasing W) (hw : ∀ e ∈ W.dropLast, w e.ts ≠ 0) (h : PhysicE (fun σ => weighted w σ W) p)
    {x : String} : p.Uses x ↔ at' W x ≠ 0 ∧ ∃ y, y ≠ x ∧ at' W y ≠ 0 := by
  unfold Physical.Uses
  rw [h.linear_nil hW]
  constructor
  · rintro (hx | ⟨⟨a, b⟩, hk, hx⟩)
    · simp [dkeys] at hx
    · have hlt := h.keyed.ordered _ hk
      obtain ⟨h1, h2⟩ := (h.quad_iff hW hw hlt).mp hk
      rcases hx with rfl | rfl
      · exact ⟨h1, _, hlt.ne', h2⟩
      · exact ⟨h2, _, hlt.ne, h1⟩
  · rintro ⟨h1, y, hy, h2⟩
    refine .inr ?_
    rcases lt_or_gt_of_ne hy with hlt | hlt
    · exact ⟨(y, x), (h.quad_iff hW hw hlt).mpr ⟨h2, h1⟩, .inr rfl⟩
    · exact ⟨(x, y), (h.quad_iff hW hw hlt).mpr ⟨h1, h2⟩, .inl rfl⟩

theorem PhysicE.empty_iff (hW : Increasing W) (hw : ∀ e ∈ W.dropLast, w e.ts ≠ 0) (h : PhysicE (fun σ => weighted w σ W) p) :
    Props.Empty p ↔ ¬ TwoNonzero W := by
  rw [← not_iff_not, not_not]
  constructor
  · intro hne
    unfold Props.Empty at hne
    rw [h.linear_nil hW] at hne
    simp only [true_and] at hne
    obtain ⟨t, ts, ht⟩ := List.exists_cons_of_ne_nil hne
    have hk : t.1 ∈ dkeys p.quad := by rw [ht]; simp [dkeys]
    have hlt := h.keyed.ordered _ hk
    obtain ⟨h1, h2⟩ := (h.quad_iff hW hw hlt).mp hk
    obtain ⟨e, he, hl, hd⟩ := (at_ne_zero hW).mp h1
    obtain ⟨e', he', hl', hd'⟩ := (at_ne_zero hW).mp h2
    refine ⟨e, he, e', he', fun hc => ?_, hd, hd'⟩
    rw [← hl, ← hl'] at hlt
    unfold lab at hlt
    rw [hc] at hlt
    exact lt_irrefl _ hlt
  · rintro ⟨e, he, e', he', hi, hd, hd'⟩ ⟨_, hq⟩
    have hx : p.Uses (lab e) := (h.uses_iff hW hw).mpr ⟨(at_ne_zero hW).mpr ⟨e, he, rfl, hd⟩, lab e', fun hc => hi (lab_inj hc).symm,
      (at_ne_zero hW).mpr ⟨e', he', rfl, hd'⟩⟩
    unfold Physical.Uses at hx
    rw [h.linear_nil hW, hq] at hx
    simp [dkeys] at hx

theorem weighted_signs (w : ℚ → ℚ) (W : List (El ℚ)) (f : String → ℤ) :
    weighted w (fun v => (f v : ℚ)) W = weightedSigns w W (W.map fun e => f (lab e)) := by
  induction W with
  | nil => rfl
  | cons e W ih =>
    rw [List.map_cons, weighted, weightedSigns, ih]
    congr 3
    unfold signedSum
    clear ih
    induction W with
    | nil => rfl
    | cons e W ih => simp only [List.map_cons, List.zipWith_cons_cons, List.sum_cons, ih]

end Sawatabi.NppStream

namespace Sawatabi.Props

open Stream NppStream

variable {now : ℚ} {render : El ℚ → String} {env env' : Env} {clks clks' : Nat → Nat → ℚ} {ids ids' : Nat → String}
  {solver : Physical → Except Err (List (Sample × ℚ))} {ms : ℚ} {id : String}

/-- The weights are between the minimum scale and 1, so positive if the minimum scale is. -/
theorem weight_pos {W : List (El ℚ)} (hW : Increasing W) (hms : 0 < ms) {e : El ℚ} (he : e ∈ W.dropLast) : 0 < weight ms W e.ts := by
  unfold weight
  cases W with
  | nil => cases he
  | cons a W =>
    simp only [List.head?_cons]
    cases hb : (a :: W).dropLast.getLast? with
    | none => exact one_pos
    | some b =>
      simp only
      by_cases hab : a.ts < b.ts
      · rw [if_pos hab]
        have hlo : a.ts ≤ e.ts := by
          rcases List.mem_cons.mp (List.dropLast_subset _ he) with rfl | h
          · exact le_rfl
          · exact ((List.pairwise_cons.mp hW).1 e h).1.le
        have hhi : e.ts ≤ b.ts := by
          obtain ⟨L, hL⟩ := List.getLast?_eq_some_iff.mp hb
          have hd : ((a :: W).dropLast).Pairwise fun x y => x.ts < y.ts ∧ x.idx < y.idx := hW.sublist (List.dropLast_sublist _)
          rw [hL] at he hd
          rcases List.mem_append.mp he with h | h
          · exact ((List.pairwise_append.mp hd).2.2 e h b (by simp)).1.le
          · rw [List.mem_singleton.mp h]
        have hden : 0 < b.ts - a.ts := by linarith
        have h0 : 0 ≤ (e.ts - a.ts) / (b.ts - a.ts) := div_nonneg (by linarith) hden.le
        have h1 : (e.ts - a.ts) / (b.ts - a.ts) ≤ 1 := by rw [div_le_one hden]; linarith
        rcases h0.eq_or_lt with h0 | h0
        · rw [← h0]; linarith
        · have := mul_nonneg hms.le (sub_nonneg.mpr h1)
          linarith
      · rw [if_neg hab]
        exact one_pos

/-- The answer for a window: a partition that minimises the weighted sum of the products of signed numbers. -/
structure WeightedAnswer (w : ℚ → ℚ) (W : List (El ℚ)) (r : Report) : Prop where
  input : r.input = W.map (·.data)
  sums : r.sumP = r.setP.sum ∧ r.sumN = r.setN.sum
  split : ∃ signs, Signs r.input signs ∧ r.setP = part 1 r.input signs ∧ r.setN = part (-1) r.input signs ∧
    r.diff = difference r.input signs ∧ ∀ s, Signs r.input s → weightedSigns w W signs ≤ weightedSigns w W s

theorem weighted_cases {W : List (El ℚ)} {p : Physical} {w : ℚ → ℚ} (hW : Increasing W) (hw : ∀ e ∈ W.dropLast, w e.ts ≠ 0)
    (h : PhysicE (fun σ => weighted w σ W) p) :
    (TwoNonzero W ∧ (∀ e ∈ W, e.data ≠ 0) → ∃ r, outputOf exactSolver p W = .result r ∧ WeightedAnswer w W r) ∧
    (TwoNonzero W ∧ (∃ e ∈ W, e.data = 0) → outputOf exactSolver p W = .failedUnmap .keyError) ∧
    (¬ TwoNonzero W → outputOf exactSolver p W = .failedSolve .valueError) := by
  have solved : TwoNonzero W → ∃ res, exactSolver p = .ok res ∧ res ≠ [] ∧
      (∀ r ∈ res, r.2 = p.energy r.1.assign ∧ (dkeys r.1).Nodup ∧ (∀ v, v ∈ dkeys r.1 ↔ p.Uses v) ∧
        ∀ kv ∈ r.1, p.mtype.vtype.Domain kv.2) ∧
      ∀ f : String → ℤ, (∀ v, p.Uses v → p.mtype.vtype.Domain (f v)) → ∃ r ∈ res, ∀ v, p.Uses v → dget r.1 v = some (f v) := by
    intro h2
    have hne : ¬ Props.Empty p := fun hc => (h.empty_iff hW hw).mp hc h2
    obtain ⟨res, log', hr⟩ := C57_success_partial (log := []) hne h.keyed
    obtain ⟨g1, g2⟩ := C57_all_assignments_partial hne h.keyed hr
    refine ⟨res, by unfold exactSolver; rw [hr], ?_, g1, g2⟩
    obtain ⟨r, hr', _⟩ := g2 (fun _ => 1) (by rw [h.mtype]; intro _ _; exact .inl rfl)
    exact List.ne_nil_of_mem hr'
  refine ⟨?_, ?_, ?_⟩
  · rintro ⟨h2, h0⟩
    obtain ⟨res, hres, hne, g1, g2⟩ := solved h2
    obtain ⟨r, hr, hbest, hmin⟩ := best_ok hne
    obtain ⟨e1, e2, e3, e4⟩ := g1 r hr
    have huses : ∀ e ∈ W, p.Uses (lab e) := by
      intro e he
      obtain ⟨a, ha, b, hb, hab, da, db⟩ := h2
      refine (h.uses_iff hW hw).mpr ⟨(at_ne_zero hW).mpr ⟨e, he, rfl, h0 e he⟩, ?_⟩
      by_cases hea : e.idx = a.idx
      · exact ⟨lab b, fun hc => hab (by have := lab_inj hc; omega), (at_ne_zero hW).mpr ⟨b, hb, rfl, db⟩⟩
      · exact ⟨lab a, fun hc => hea (lab_inj hc).symm, (at_ne_zero hW).mpr ⟨a, ha, rfl, da⟩⟩
    let f : String → ℤ := fun v => (dget r.1 v).getD 0
    have hf : ∀ e ∈ W, dget r.1 (lab e) = some (f (lab e)) ∧ (f (lab e) = 1 ∨ f (lab e) = -1) := by
      intro e he
      obtain ⟨v, hv⟩ := (dget_isSome_iff r.1 (lab e)).mpr ((e3 _).mpr (huses e he))
      have hd := e4 _ (dget_mem hv)
      rw [h.mtype] at hd
      refine ⟨by simp only [f, hv, Option.getD_some], ?_⟩
      simp only [f, hv, Option.getD_some]
      simpa [MType.vtype, VType.Domain] using hd
    let signs := W.map fun e => f (lab e)
    have hfa : List.Forall₂ (fun e s => dget r.1 (lab e) = some s ∧ (s = 1 ∨ s = -1)) W signs := by
      rw [List.forall₂_map_right_iff, List.forall₂_same]
      exact hf
    have hsigns : Signs (W.map (·.data)) signs := by
      refine ⟨by simp [signs], fun s hs => ?_⟩
      obtain ⟨e, he, rfl⟩ := List.mem_map.mp hs
      exact (hf e he).2
    have hun := unmap_fold hfa (([], 0), ([], 0))
    have hout : outputOf exactSolver p W = .result ⟨W.map (·.data), part 1 (W.map (·.data)) signs, part (-1) (W.map (·.data)) signs,
        (part 1 (W.map (·.data)) signs).sum, (part (-1) (W.map (·.data)) signs).sum, difference (W.map (·.data)) signs⟩ := by
      unfold outputOf unmapping
      rw [hres]
      simp only [hbest, Except.bind_ok, hun]
      simp only [List.nil_append, zero_add, parts_difference hsigns]
      rfl
    refine ⟨_, hout, rfl, ⟨rfl, rfl⟩, signs, hsigns, rfl, rfl, rfl, ?_⟩
    intro s hs
    obtain ⟨g, hg1, hg2⟩ := exists_assign hW.ordered hs
    obtain ⟨r', hr', hv⟩ := g2 g (by rw [h.mtype]; intro v _; simpa [MType.vtype, VType.Domain] using hg1 v)
    have hle := hmin r' hr'
    obtain ⟨e1', _⟩ := g1 r' hr'
    have hass : ∀ (x : Sample) (g : String → ℤ), (∀ e ∈ W, dget x (lab e) = some (g (lab e))) →
        weighted w x.assign W = weighted w (fun v => (g v : ℚ)) W := by
      intro x g hx
      apply weighted_congr
      intro e he
      simp [Sample.assign, hx e he]
    rw [e1, e1', h.energy, h.energy, hass r.1 f (fun e he => (hf e he).1), hass r'.1 g (fun e he => hv _ (huses e he)),
      weighted_signs, weighted_signs, hg2] at hle
    exact hle
  · rintro ⟨h2, e, he, h0⟩
    obtain ⟨res, hres, hne, g1, g2⟩ := solved h2
    obtain ⟨r, hr, hbest, _⟩ := best_ok hne
    obtain ⟨_, _, e3, _⟩ := g1 r hr
    have hnone : dget r.1 (lab e) = none := by
      rw [dget_eq_none_iff, e3, h.uses_iff hW hw, at_some hW he]
      exact fun hc => hc.1 h0
    unfold outputOf unmapping
    rw [hres]
    simp only [hbest, Except.bind_ok, unmap_missing he hnone]
    rfl
  · intro h2
    have hemp := (h.empty_iff hW hw).mpr h2
    have := (C56_empty hemp).1 none []
    unfold outputOf exactSolver
    rw [this]

/-- What the application with attenuation yields for the numbers `W`. -/
def YieldsWeighted (w : ℚ → ℚ) (W : List (El ℚ)) (o : List (Output Report)) : Prop :=
  (TwoNonzero W ∧ (∀ e ∈ W, e.data ≠ 0) → ∃ r, o = [.result r] ∧ WeightedAnswer w W r) ∧
  (TwoNonzero W ∧ (∃ e ∈ W, e.data = 0) → o = [.failedUnmap .keyError]) ∧
  (¬ TwoNonzero W → o = [.failedSolve .valueError])

/-! ## C95: attenuation -/

/-- Over windows that slide along a stream, the application with attenuation gets through exactly if every window holds at
least two numbers; otherwise it ends in a `KeyError` or `ValueError`. -/
theorem C95_succeeds_iff {E : List (El ℚ)} (hE : Increasing E) {ws : List (Bool × Win ℚ)}
    {a b : ℚ} (hs : Sliding E a b (ws.map (·.2))) (ho : InOrder (-1) (ws.map (·.2))) :
    let r := (processAll (NppStream.attenuation env' clks' ids' ms) (fns now render env clks ids solver) (LModel.new .ising id) ws).run
      St.start
    (r.isOk = true ↔ ∀ w ∈ ws, 2 ≤ w.2.elements.length) ∧
    (r.isOk = false → ∃ e st', (e = .keyError ∨ e = .valueError) ∧ r = .error e st') := by
  intro r
  obtain ⟨h1, h2⟩ := attenuation_start (now := now) (render := render) (env := env) (clks := clks) (ids := ids) (env' := env')
    (clks' := clks') (ids' := ids') (ms := ms) (solver := solver) hE hs ho id
  by_cases hall : ∀ w ∈ ws, 2 ≤ w.2.elements.length
  · obtain ⟨os, st', hr, _⟩ := h1 hall
    have hr : r = _ := hr
    rw [hr]
    exact ⟨⟨fun _ => hall, fun _ => rfl⟩, fun h => by cases h⟩
  · have hex : ∃ w ∈ ws, w.2.elements.length < 2 := by
      by_contra hc
      exact hall fun w hw => not_lt.mp fun hl => hc ⟨w, hw, hl⟩
    obtain ⟨e, st', he, hr⟩ := h2 hex
    have hr : r = _ := hr
    rw [hr]
    exact ⟨⟨fun h => (by cases h), fun h => absurd h hall⟩, fun _ => ⟨e, st', he, rfl⟩⟩

/-- The model given to the solver is that of the numbers of the window, in which the interaction of two numbers is scaled by
the weight of the older one: the minimum scale for the oldest number, 1 for the last but one, linear in time between. Nothing
is left of earlier windows or of the scales in them. -/
theorem C95_model {E : List (El ℚ)} (hE : Increasing E) {ws : List (Bool × Win ℚ)}
    {a b : ℚ} (hs : Sliding E a b (ws.map (·.2))) (ho : InOrder (-1) (ws.map (·.2))) (h2 : ∀ w ∈ ws, 2 ≤ w.2.elements.length) :
    ∃ os st', (processAll (NppStream.attenuation env' clks' ids' ms) (fns now render env clks ids solver) (LModel.new .ising id) ws).run
        St.start = .ok os st' ∧ os.length = ws.length ∧
      List.Forall₂ (fun w c => c.2 = sorted w.2.elements ∧ ∀ ρ σ, c.1.energy ρ σ = weighted (weight ms c.2) σ c.2) ws
        (solveArgs st'.calls) := by
  obtain ⟨h1, -⟩ := attenuation_start (now := now) (render := render) (env := env) (clks := clks) (ids := ids) (env' := env')
    (clks' := clks') (ids' := ids') (ms := ms) (solver := solver) hE hs ho id
  obtain ⟨os, st', hr, h3, h4⟩ := h1 h2
  refine ⟨os, st', hr, by simpa using h3.length_eq.symm, ?_⟩
  rw [List.forall₂_map_left_iff] at h4
  refine h4.imp fun w c hc => ⟨hc.1, ?_⟩
  rw [hc.1]
  exact hc.2

/-- With the exact solver and a positive minimum scale, every window yields a partition of its numbers that minimises the
weighted sum of products, and the difference reported is that of the partition, provided no number is zero. -/
theorem C95_yields {E : List (El ℚ)} (hE : Increasing E) (hms : 0 < ms) {ws : List (Bool × Win ℚ)}
    {a b : ℚ} (hs : Sliding E a b (ws.map (·.2))) (ho : InOrder (-1) (ws.map (·.2))) (h2 : ∀ w ∈ ws, 2 ≤ w.2.elements.length) :
    ∃ os st', (processAll (NppStream.attenuation env' clks' ids' ms) (fns now render env clks ids exactSolver) (LModel.new .ising id)
        ws).run St.start = .ok os st' ∧
      List.Forall₂ (fun w o => YieldsWeighted (weight ms (sorted w.2.elements)) (sorted w.2.elements) o) ws os := by
  obtain ⟨h1, -⟩ := attenuation_start (now := now) (render := render) (env := env) (clks := clks) (ids := ids) (env' := env')
    (clks' := clks') (ids' := ids') (ms := ms) (solver := exactSolver) hE hs ho id
  obtain ⟨os, st', hr, h3, -⟩ := h1 h2
  refine ⟨os, st', hr, ?_⟩
  have hinc := sliding_increasing hE hs
  rw [List.forall₂_map_left_iff] at h3
  clear hs ho hr h1 h2
  induction h3 with
  | nil => exact .nil
  | @cons w o ws os hwo _ ih =>
    refine .cons ?_ (ih fun w hw => hinc w (by simp [hw]))
    obtain ⟨p, hp, rfl⟩ := hwo
    have hW := hinc w.2 (by simp)
    obtain ⟨c1, c2, c3⟩ := weighted_cases hW (fun e he => (weight_pos hW hms he).ne') hp
    refine ⟨fun h => ?_, fun h => by rw [c2 h], fun h => by rw [c3 h]⟩
    obtain ⟨r, hr, ha⟩ := c1 h
    exact ⟨r, by rw [hr], ha⟩

theorem weight_full (W : List (El ℚ)) (t : ℚ) : weight 1 W t = 1 := by
  unfold weight
  cases W.head? with
  | none => rfl
  | some a =>
    cases W.dropLast.getLast? with
    | none => rfl
    | some b =>
      simp only
      by_cases h : a.ts < b.ts
      · rw [if_pos h]; ring
      · rw [if_neg h]

theorem weight_two {W : List (El ℚ)} (h : W.length ≤ 2) (t : ℚ) : weight ms W t = 1 := by
  match W, h with
  | [], _ => rfl
  | [a], _ => rfl
  | [a, b], _ => simp [weight]

theorem weightedSigns_full {w : ℚ → ℚ} (hw : ∀ t, w t = 1) (W : List (El ℚ)) (signs : List ℤ) (h : Signs (W.map (·.data)) signs) :
    2 * weightedSigns w W signs =
      (List.zipWith (fun (n : ℚ) (s : ℤ) => n * (s : ℚ)) (W.map (·.data)) signs).sum ^ 2 - (W.map fun e => e.data ^ 2).sum := by
  obtain ⟨h1, h2⟩ := h
  induction W generalizing signs with
  | nil =>
    cases signs <;> simp [weightedSigns]
  | cons e W ih =>
    cases signs with
    | nil => cases h1
    | cons s signs =>
      have hz : List.zipWith (fun e (s : ℤ) => e.data * (s : ℚ)) W signs =
          List.zipWith (fun (n : ℚ) (s : ℤ) => n * (s : ℚ)) (W.map (·.data)) signs := by
        rw [List.zipWith_map_left]
      have := ih signs (by simpa using h1) (fun x hx => h2 x (by simp [hx]))
      rw [weightedSigns, hw, hz]
      simp only [List.map_cons, List.zipWith_cons_cons, List.sum_cons]
      rcases h2 s (by simp) with rfl | rfl <;> push_cast <;> linear_combination this

/-- Without attenuation (a minimum scale of 1), and for windows of two numbers, the answer is an optimal partition. -/
theorem C95_unweighted {W : List (El ℚ)} (h : ms = 1 ∨ W.length ≤ 2) {r : Report} (hr : WeightedAnswer (weight ms W) W r) :
    Answer W r := by
  obtain ⟨h1, h2, signs, h3, h4, h5, h6, h7⟩ := hr
  have hw : ∀ t, weight ms W t = 1 := by
    rcases h with rfl | h
    · exact weight_full W
    · exact weight_two h
  refine ⟨h1, ⟨signs, h3, h4, h5, h6⟩, h2, ⟨signs, h3, h6.symm⟩, fun s hs => ?_⟩
  have hle := h7 s hs
  rw [h1] at h3 hs h6 ⊢
  have e1 := weightedSigns_full hw W signs h3
  have e2 := weightedSigns_full hw W s hs
  rw [h6]
  exact sq_le_sq.mp (by linarith)

/-! ## Examples -/

/-- The attenuation of the examples. -/
def Ex.nppAttenuation (ms : ℚ) : Algorithm LModel ℚ := NppStream.attenuation ⟨0, fun _ => ""⟩ (fun _ _ => 0) (fun _ => "1") ms

/-- Windows of length 3 with period 1 over `Ex.numbers`, with elements in some order. -/
def Ex.attnWins : List (Bool × Win ℚ) := Ex.nppWins.take 3

example : Sliding Ex.numbers 0 0 (Ex.attnWins.map (·.2)) ∧ InOrder (-1) (Ex.attnWins.map (·.2)) ∧
    ∀ w ∈ Ex.attnWins, 2 ≤ w.2.elements.length :=
  ⟨⟨1, 4, by norm_num, by norm_num, ⟨by decide +kernel, by decide⟩, 2, 5, by norm_num, by norm_num, ⟨by decide +kernel, by decide⟩,
    3, 6, by norm_num, by norm_num, ⟨by decide +kernel, by decide⟩, trivial⟩,
   by norm_num [Ex.attnWins, Ex.nppWins, InOrder], by decide +kernel⟩

/-- The difference reported need not be the smallest: with the options of the sample, 5, 3 and 2 are split into 3 against 5 and
2, although 5 against 3 and 2 has no difference. -/
theorem C95_optimal_refuted : Ex.nppRun (Ex.nppAttenuation (1 / 10)) [(false, ⟨3, [⟨2, 1, 3⟩, ⟨1, 0, 5⟩, ⟨3, 2, 2⟩]⟩)] = some
    [[.result ⟨[5, 3, 2], [3], [5, 2], 3, 7, 4⟩]] ∧ Optimal [5, 3, 2] 0 := by
  refine ⟨by decide +kernel, ⟨[1, -1, -1], by unfold Signs; decide, by norm_num [difference]⟩, fun s _ => abs_nonneg _⟩

/-- With a minimum scale of 0 the oldest number is not in the solution. -/
theorem C95_zero_scale_refuted : Ex.nppRun (Ex.nppAttenuation 0) [(false, ⟨3, [⟨2, 1, 3⟩, ⟨1, 0, 5⟩, ⟨3, 2, 2⟩]⟩)] = some
    [[.failedUnmap .keyError]] := by
  decide +kernel

example : Ex.nppRun (Ex.nppAttenuation 1) Ex.nppWins = none ∧ Ex.nppRun (Ex.nppAttenuation 1) Ex.attnWins = some
    [[.result ⟨[5, 3, 2], [5], [3, 2], 5, 5, 0⟩], [.result ⟨[3, 2, 4], [3, 2], [4], 5, 4, 1⟩], [.failedUnmap .keyError]] := by
  decide +kernel

/-- A window with a single number: its error, first or later. -/
def Ex.nppError (ws : List (Bool × Win ℚ)) : Option Err :=
  match (processAll (Ex.nppAttenuation (1 / 10)) Ex.nppFns (LModel.new .ising "0") ws).run St.start with
  | .ok _ _ => none
  | .error e _ => some e

example : Ex.nppError [(false, ⟨1, [⟨1, 0, 3⟩]⟩)] = some .keyError ∧
    Ex.nppError [(false, ⟨3, [⟨1, 0, 3⟩, ⟨2, 1, 5⟩]⟩), (false, ⟨9, [⟨8, 2, 3⟩]⟩)] = some .valueError := by
  decide +kernel

end Sawatabi.Props
