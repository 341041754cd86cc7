import Verif.Model.Aggregate
import Verif.Props.Samplers
import Verif.Props.TidyExact

/-!
# C127: equal samples in the answer of Optigan

What the records of the sample set are, stated without the loop that makes them, and what they say about the answer of
the server.
-/

namespace Sawatabi.Props

variable {l : List (Sample × ℚ)} {rs : List Record} {p : Physical} {res : List (Sample × ℚ)}

/-- The records of a list of samples with energies: one for each sample of the list, in the order in which the samples
first occur, with the number of times the sample occurs and the energy of its first occurrence. -/
structure Merges (l : List (Sample × ℚ)) (rs : List Record) : Prop where
  samples : ∀ s, s ∈ rs.map (·.sample) ↔ s ∈ l.map (·.1)
  order : (rs.map (·.sample)).Pairwise fun s t => (l.map (·.1)).idxOf s < (l.map (·.1)).idxOf t
  occurrences : ∀ r ∈ rs, r.occurrences = (l.map (·.1)).count r.sample
  energy : ∀ r ∈ rs, (l[(l.map (·.1)).idxOf r.sample]?).map (·.2) = some r.energy

theorem addRecord_new {x : Sample × ℚ} (h : x.1 ∉ rs.map (·.sample)) : addRecord rs x = rs ++ [⟨x.1, x.2, 1⟩] := by
  induction rs with
  | nil => rfl
  | cons r rs ih =>
    simp only [List.map_cons, List.mem_cons, not_or] at h
    rw [addRecord, if_neg fun e => h.1 e.symm, ih h.2, List.cons_append]

theorem addRecord_samples {x : Sample × ℚ} (h : x.1 ∈ rs.map (·.sample)) : (addRecord rs x).map (·.sample) = rs.map (·.sample) := by
  induction rs with
  | nil => cases h
  | cons r rs ih =>
    unfold addRecord
    split
    · rfl
    · next hne =>
      simp only [List.map_cons, List.mem_cons] at h
      rw [List.map_cons, ih (h.resolve_left fun e => hne e.symm), List.map_cons]

theorem mem_addRecord {x : Sample × ℚ} (hn : (rs.map (·.sample)).Nodup) (h : x.1 ∈ rs.map (·.sample)) {r : Record}
    (hr : r ∈ addRecord rs x) : ∃ q ∈ rs, r = if q.sample = x.1 then { q with occurrences := q.occurrences + 1 } else q := by
  induction rs with
  | nil => cases h
  | cons q rs ih =>
    rw [List.map_cons, List.nodup_cons] at hn
    unfold addRecord at hr
    split at hr
    · next e =>
      rcases List.mem_cons.mp hr with rfl | hr
      · exact ⟨q, List.mem_cons_self, (if_pos e).symm⟩
      · refine ⟨r, List.mem_cons_of_mem _ hr, (if_neg fun e' => hn.1 ?_).symm⟩
        rw [e, ← e']
        exact List.mem_map_of_mem hr
    · next hne =>
      rcases List.mem_cons.mp hr with rfl | hr
      · exact ⟨r, List.mem_cons_self, (if_neg hne).symm⟩
      · simp only [List.map_cons, List.mem_cons] at h
        obtain ⟨q', h1, h2⟩ := ih hn.2 (h.resolve_left fun e => hne e.symm) hr
        exact ⟨q', List.mem_cons_of_mem _ h1, h2⟩

theorem Merges.nodup (h : Merges l rs) : (rs.map (·.sample)).Nodup :=
  h.order.imp fun h e => by rw [e] at h; exact lt_irrefl _ h

theorem Merges.snoc (h : Merges l rs) (x : Sample × ℚ) : Merges (l ++ [x]) (addRecord rs x) := by
  have hold : ∀ {s}, s ∈ l.map (·.1) → ((l ++ [x]).map (·.1)).idxOf s = (l.map (·.1)).idxOf s := fun hs => by
    rw [List.map_append, List.idxOf_append_of_mem hs]
  have hnew : x.1 ∉ l.map (·.1) → ((l ++ [x]).map (·.1)).idxOf x.1 = l.length := fun hs => by
    rw [List.map_append, List.idxOf_append_of_notMem hs]; simp
  have hlt : ∀ {s}, s ∈ l.map (·.1) → (l.map (·.1)).idxOf s < l.length := fun hs => by
    have := List.idxOf_lt_length_of_mem hs
    rwa [List.length_map] at this
  have hget : ∀ {s}, s ∈ l.map (·.1) → (l ++ [x])[(l.map (·.1)).idxOf s]? = l[(l.map (·.1)).idxOf s]? := fun hs =>
    List.getElem?_append_left (hlt hs)
  have horder : (rs.map (·.sample)).Pairwise fun s t => ((l ++ [x]).map (·.1)).idxOf s < ((l ++ [x]).map (·.1)).idxOf t := by
    refine h.order.imp_of_mem fun hs ht hst => ?_
    rwa [hold ((h.samples _).mp hs), hold ((h.samples _).mp ht)]
  by_cases hx : x.1 ∈ rs.map (·.sample)
  · have hxl := (h.samples _).mp hx
    refine ⟨fun s => ?_, ?_, fun r hr => ?_, fun r hr => ?_⟩
    · rw [addRecord_samples hx, h.samples, List.map_append, List.mem_append, List.map_singleton, List.mem_singleton]
      exact ⟨.inl, fun hs => hs.elim id fun e => e ▸ hxl⟩
    · rw [addRecord_samples hx]; exact horder
    · obtain ⟨q, hq, rfl⟩ := mem_addRecord h.nodup hx hr
      have := h.occurrences q hq
      split
      · next e => simp only [List.map_append, List.map_singleton, List.count_append, List.count_singleton, e, this]; simp
      · next e =>
        simp only [List.map_append, List.map_singleton, List.count_append, List.count_singleton, this]
        rw [if_neg (by simpa using fun e' => e e'.symm), Nat.add_zero]
    · obtain ⟨q, hq, rfl⟩ := mem_addRecord h.nodup hx hr
      have hql : q.sample ∈ l.map (·.1) := (h.samples _).mp (List.mem_map_of_mem hq)
      have := h.energy q hq
      split <;> (rw [hold hql, hget hql]; exact this)
  · have hxl : x.1 ∉ l.map (·.1) := fun e => hx ((h.samples _).mpr e)
    rw [addRecord_new hx]
    refine ⟨fun s => ?_, ?_, fun r hr => ?_, fun r hr => ?_⟩
    · simp only [List.map_append, List.mem_append, List.map_singleton, List.mem_singleton, h.samples]
    · rw [List.map_append (f := fun r : Record => r.sample), List.pairwise_append]
      refine ⟨horder, List.pairwise_singleton _ _, fun s hs t ht => ?_⟩
      simp only [List.map_singleton, List.mem_singleton] at ht
      subst ht
      have hs' := (h.samples _).mp hs
      rw [hold hs', hnew hxl]
      exact hlt hs'
    · rcases List.mem_append.mp hr with hr | hr
      · have hrl : r.sample ∈ l.map (·.1) := (h.samples _).mp (List.mem_map_of_mem hr)
        rw [List.map_append, List.count_append, h.occurrences r hr, List.map_singleton, List.count_singleton,
          if_neg (by simpa using fun e : x.1 = r.sample => hxl (e ▸ hrl)), Nat.add_zero]
      · rw [List.mem_singleton] at hr
        subst hr
        simp only [List.map_append, List.count_append, List.map_singleton, List.count_singleton, List.count_eq_zero_of_not_mem hxl]
        simp
    · rcases List.mem_append.mp hr with hr | hr
      · have hrl : r.sample ∈ l.map (·.1) := (h.samples _).mp (List.mem_map_of_mem hr)
        rw [hold hrl, hget hrl]
        exact h.energy r hr
      · rw [List.mem_singleton] at hr
        subst hr
        simp only
        rw [hnew hxl]
        simp

theorem aggregate_merges (l : List (Sample × ℚ)) : Merges l (aggregate l) := by
  induction l using List.reverseRecOn with
  | nil => exact ⟨fun s => by simp [aggregate], by simp [aggregate], fun r hr => by simp [aggregate] at hr, fun r hr => by simp [aggregate] at hr⟩
  | append_singleton l x ih =>
    have := ih.snoc x
    unfold aggregate at this ⊢
    rwa [List.foldl_append]

/-- **C127** The records are determined by the list of samples and energies, and they are what the aggregation makes. -/
theorem C127_exact : aggregate l = rs ↔ Merges l rs := by
  refine ⟨fun h => h ▸ aggregate_merges l, fun h => ?_⟩
  have h' := aggregate_merges l
  have hs : (aggregate l).map (·.sample) = rs.map (·.sample) := by
    refine List.Perm.eq_of_pairwise (fun a b _ _ h1 h2 => absurd (h1.trans h2) (lt_irrefl _)) h'.order h.order ?_
    exact (List.perm_ext_iff_of_nodup h'.nodup h.nodup).mpr fun s => by rw [h'.samples, h.samples]
  have hlen : (aggregate l).length = rs.length := by simpa using congrArg List.length hs
  refine List.ext_getElem hlen fun i h1 h2 => ?_
  have e1 : (aggregate l)[i].sample = rs[i].sample := by
    have := List.getElem_of_eq hs (i := i) (by simpa using h1)
    simpa using this
  have e2 := (h'.occurrences _ (List.getElem_mem h1)).trans (e1 ▸ (h.occurrences _ (List.getElem_mem h2)).symm)
  have e3 := (h'.energy _ (List.getElem_mem h1)).symm.trans (e1 ▸ h.energy _ (List.getElem_mem h2))
  revert e1 e2 e3
  generalize (aggregate l)[i] = a
  generalize rs[i] = b
  intro e1 e2 e3
  obtain ⟨_, _, _⟩ := a
  obtain ⟨_, _, _⟩ := b
  simp_all

example : aggregate [([("x", 1)], -2), ([("x", 0)], 0), ([("x", 1)], 5)] = [⟨[("x", 1)], -2, 2⟩, ⟨[("x", 0)], 0, 1⟩] := by decide +kernel

/-- The samples that the records stand for. -/
def spread (rs : List Record) : List (Sample × ℚ) := rs.flatMap fun r => List.replicate r.occurrences (r.sample, r.energy)

theorem spread_add {x : Sample × ℚ} (h : ∀ r ∈ rs, r.sample = x.1 → r.energy = x.2) : (spread (addRecord rs x)).Perm (x :: spread rs) := by
  induction rs with
  | nil => simp [addRecord, spread]
  | cons r rs ih =>
    unfold addRecord
    split
    · next e =>
      have : (r.sample, r.energy) = x := Prod.ext e (h r List.mem_cons_self e)
      simp only [spread, List.flatMap_cons, List.replicate_succ, this, List.cons_append]
      exact List.Perm.refl _
    · have := ih fun q hq => h q (List.mem_cons_of_mem _ hq)
      simp only [spread, List.flatMap_cons] at this ⊢
      exact (this.append_left _).trans List.perm_middle

/-- **C127** If equal samples come with equal energies, the records say all but the order of the answer. -/
theorem C127_lossless_iff : (spread (aggregate l)).Perm l ↔ ∀ x ∈ l, ∀ y ∈ l, x.1 = y.1 → x.2 = y.2 := by
  constructor
  · intro h x hx y hy hxy
    have key : ∀ z ∈ l, ∃ r ∈ aggregate l, r.sample = z.1 ∧ r.energy = z.2 := fun z hz => by
      obtain ⟨r, hr, hz'⟩ := List.mem_flatMap.mp (h.mem_iff.mpr hz)
      have := (List.mem_replicate.mp hz').2
      exact ⟨r, hr, by rw [this], by rw [this]⟩
    obtain ⟨r, hr, r1, r2⟩ := key x hx
    obtain ⟨q, hq, q1, q2⟩ := key y hy
    have : r = q := by
      refine List.inj_on_of_nodup_map (aggregate_merges l).nodup hr hq ?_
      rw [r1, q1, hxy]
    rw [← r2, ← q2, this]
  · intro h
    induction l using List.reverseRecOn with
    | nil => exact List.Perm.refl _
    | append_singleton l x ih =>
      have e : aggregate (l ++ [x]) = addRecord (aggregate l) x := by unfold aggregate; rw [List.foldl_append]; rfl
      have ih := ih fun a ha b hb => h a (List.mem_append_left _ ha) b (List.mem_append_left _ hb)
      rw [e]
      refine (spread_add fun r hr hrx => ?_).trans ((ih.cons x).trans (List.perm_append_singleton x l).symm)
      have hm := aggregate_merges l
      have he := hm.energy r hr
      rw [Option.map_eq_some_iff] at he
      obtain ⟨y, hy, hye⟩ := he
      have hyl := List.mem_of_getElem? hy
      have hys : y.1 = r.sample := by
        have hmem := (hm.samples _).mp (List.mem_map_of_mem hr)
        have := List.getElem?_idxOf hmem
        rw [List.getElem?_map, hy] at this
        simpa using this
      rw [← hye]
      exact h y (List.mem_append_left _ hyl) x (List.mem_append_right _ (List.mem_singleton.mpr rfl)) (hys.trans hrx)

example : (∀ x ∈ [([("x", 1)], (-2 : ℚ)), ([("x", 0)], 0), ([("x", (1 : ℤ))], -2)], ∀ y ∈ [([("x", 1)], (-2 : ℚ)), ([("x", 0)], 0), ([("x", (1 : ℤ))], -2)],
    x.1 = y.1 → x.2 = y.2) := by decide +kernel

/-- Otherwise an energy is lost, even the lowest one. -/
theorem C127_lost_refuted : ¬ ∀ (l : List (Sample × ℚ)), ∀ x ∈ l, ∃ r ∈ aggregate l, r.energy ≤ x.2 :=
  fun h => absurd (h [([("x", 1)], 5), ([("x", 1)], -2)] ([("x", 1)], -2) (by decide +kernel)) (by decide +kernel)

/-! ## The answer of the server -/

theorem decode_eq {x : List ℤ} (hl : (p.indexToLabel.map (·.2)).Nodup) (hx : x.length = p.indexToLabel.length) :
    decode p x = (p.indexToLabel.map (·.2)).zip x := by
  have key : ∀ (z d : List (String × ℤ)), (dkeys d ++ dkeys z).Nodup → z.foldl (fun d kv => dset d kv.1 kv.2) d = d ++ z := by
    intro z
    induction z with
    | nil => intro d _; simp
    | cons kv z ih =>
      intro d h
      rw [List.foldl_cons, dset_of_not_mem kv.2 ?_, ih, List.append_assoc, List.singleton_append]
      · simpa [dkeys] using h
      · intro hm
        exact (List.nodup_append.mp h).2.2 _ hm kv.1 (by simp [dkeys]) rfl
  refine (key _ [] ?_).trans (List.nil_append _)
  simp only [dkeys, List.map_nil, List.nil_append]
  rwa [← List.map_fst_zip (l₁ := p.indexToLabel.map (·.2)) (l₂ := x) (by simp [hx])] at hl

theorem optiganRecords_ok {c : OptiganSolver} {server : OptiganRequest → OptiganResponse} {n t : Int} {d : Bool}
    {log log' : List OptiganRequest} :
    (optiganRecords c server p n t d).run log = .ok rs log' ↔
      ∃ res, (optiganSolve c server p n t d).run log = .ok res log' ∧ aggregate res = rs := by
  unfold optiganRecords
  rw [Py.run_bind]
  cases h : (optiganSolve c server p n t d).run log with
  | error e s => simp
  | ok a s =>
    simp only [Py.run_pure]
    constructor
    · intro h; cases h; exact ⟨a, rfl, rfl⟩
    · rintro ⟨res, h, rfl⟩; cases h; rfl

section
variable {m m' : LModel} {env : Env} {clks : Nat → Nat → ℚ} {ids : Nat → String} {ph : List (String × ℚ)} {c : OptiganSolver}
  {server : OptiganRequest → OptiganResponse} {n t : Int} {d : Bool} {log log' : List OptiganRequest}

/-- **C127** With an honest server, whatever it repeats: each sample is reported once, with its energy without the offset; the
numbers of occurrences add up to the number of vectors in the answer, and no energy in the answer is below the best reported
one. -/
theorem C127_optigan (hc : (toPhysical env clks ids ph).run m = .ok p m') (hs : Honest server p.indexToLabel.length)
    (h : (optiganRecords c server p n t d).run log = .ok rs log') :
    ∃ req, log' = log ++ [req] ∧ (rs.map (·.sample)).Nodup ∧ (∀ r ∈ rs, r.energy = p.energy r.sample.assign - p.offset) ∧
      (rs.map (·.occurrences)).sum = (server req).spins.length ∧ (∀ r ∈ rs, 0 < r.occurrences) ∧
      (∀ e ∈ (server req).energies, ∃ r ∈ rs, r.energy = e) ∧ ∀ r ∈ rs, r.energy ∈ (server req).energies := by
  obtain ⟨res, h1, rfl⟩ := optiganRecords_ok.mp h
  clear h
  rename' h1 => h
  obtain ⟨req, hlog, hlen, hres⟩ := C58_decode hc hs h
  have hen : ∀ r ∈ res, r.2 = p.energy r.1.assign - p.offset := fun r hr => by
    obtain ⟨j, hj, rfl⟩ := List.mem_iff_getElem.mp hr
    exact (hres j _ _ (List.getElem?_eq_getElem hj) (List.getElem?_eq_getElem (by omega))).2.2
  have hperm : (spread (aggregate res)).Perm res := C127_lossless_iff.mpr fun x hx y hy e => by rw [hen x hx, hen y hy, e]
  have hm := aggregate_merges res
  have hpos : ∀ r ∈ aggregate res, 0 < r.occurrences := fun r hr => by
    rw [hm.occurrences r hr]
    exact List.count_pos_iff.mpr ((hm.samples _).mp (List.mem_map_of_mem hr))
  have hin : ∀ r ∈ aggregate res, (r.sample, r.energy) ∈ res := fun r hr =>
    hperm.mem_iff.mp (List.mem_flatMap.mpr ⟨r, hr, List.mem_replicate.mpr ⟨(hpos r hr).ne', rfl⟩⟩)
  have hene : res.map (·.2) = (server req).energies := by
    obtain ⟨_, req', _, _, _, h4, rfl, _, h7, _⟩ := optigan_ok h
    have : req' = req := by simpa using h4.symm.trans hlog
    subst this
    exact List.map_snd_zip (by simp [h7])
  refine ⟨req, hlog, hm.nodup, fun r hr => hen _ (hin r hr), ?_, hpos, fun e he => ?_, fun r hr => ?_⟩
  · rw [← hlen, ← hperm.length_eq]
    simp [spread, List.length_flatMap]
  · rw [← hene] at he
    obtain ⟨x, hx, rfl⟩ := List.mem_map.mp he
    obtain ⟨r, hr, hx'⟩ := List.mem_flatMap.mp (hperm.mem_iff.mpr hx)
    exact ⟨r, hr, by rw [(List.mem_replicate.mp hx').2]⟩
  · rw [← hene]
    exact List.mem_map.mpr ⟨_, hin r hr, rfl⟩

/-- **C127** If the labels of the model are distinct, the occurrences of a sample are those of its vector in the answer: the
records tell how often the server returned each vector of bits. -/
theorem C127_vectors (hl : (p.indexToLabel.map (·.2)).Nodup) (hs : Honest server p.indexToLabel.length)
    (h : (optiganRecords c server p n t d).run log = .ok rs log') :
    ∃ req, log' = log ++ [req] ∧ (∀ r ∈ rs, ∃ x ∈ (server req).spins, r.sample = (p.indexToLabel.map (·.2)).zip x ∧
        r.occurrences = (server req).spins.count x) ∧
      ∀ x ∈ (server req).spins, (p.indexToLabel.map (·.2)).zip x ∈ rs.map (·.sample) := by
  obtain ⟨res, h1, rfl⟩ := optiganRecords_ok.mp h
  clear h
  rename' h1 => h
  obtain ⟨_, req, _, _, _, hlog, rfl, _, h7, _⟩ := optigan_ok h
  have hlen := (hs req).2.1
  have hfst : ((((server req).spins.map fun x => decode p x).zip (server req).energies)).map (·.1) =
      (server req).spins.map fun x => (p.indexToLabel.map (·.2)).zip x := by
    rw [List.map_fst_zip (by simp [h7])]
    exact List.map_congr_left fun x hx => decode_eq hl (hlen x hx).1
  have hinj : ∀ x ∈ (server req).spins, ∀ y ∈ (server req).spins,
      (p.indexToLabel.map (·.2)).zip x = (p.indexToLabel.map (·.2)).zip y → x = y := fun x hx y hy e => by
    have := congrArg (List.map (·.2)) e
    rwa [List.map_snd_zip (by simp [(hlen x hx).1]), List.map_snd_zip (by simp [(hlen y hy).1])] at this
  have hm := aggregate_merges (((server req).spins.map fun x => decode p x).zip (server req).energies)
  refine ⟨req, hlog, fun r hr => ?_, fun x hx => ?_⟩
  · have hmem := (hm.samples _).mp (List.mem_map_of_mem hr)
    rw [hfst] at hmem
    obtain ⟨x, hx, hxr⟩ := List.mem_map.mp hmem
    refine ⟨x, hx, hxr.symm, ?_⟩
    rw [hm.occurrences r hr, hfst, ← hxr]
    simp only [List.count, List.countP_map]
    refine List.countP_congr fun y hy => ?_
    simp only [Function.comp, beq_iff_eq]
    exact ⟨fun e => hinj y hy x hx e, fun e => by rw [e]⟩
  · rw [hm.samples, hfst]
    exact List.mem_map_of_mem hx

end

/-- A server that returns one vector twice. -/
def Ex.repeats (req : OptiganRequest) : OptiganResponse :=
  ⟨200, [[1, 1, 0], [0, 0, 1], [1, 1, 0]],
    [[1, 1, 0], [0, 0, 1], [1, 1, 0]].map fun x => polyValue (fun i => ((x[i]?.getD 0 : ℤ) : ℚ)) req.polynomial⟩

theorem Ex.repeats_honest : Honest Ex.repeats 3 := by
  intro req
  refine ⟨rfl, ?_, rfl⟩
  show ∀ x ∈ [[1, 1, 0], [0, 0, 1], [1, 1, 0]], _
  decide

/-- The hypotheses are met, and the repeated vector is counted twice. -/
example : Honest Ex.repeats Ex.physQubo.indexToLabel.length ∧ (Ex.physQubo.indexToLabel.map (·.2)).Nodup ∧
    ∃ rs log', (optiganRecords ⟨some "e", some "t", none⟩ Ex.repeats Ex.physQubo 10 10000 true).run [] = .ok rs log' ∧
      decide (rs.map (·.occurrences) = [2, 1] ∧ rs.map (·.energy) = [-8, 4]) = true :=
  ⟨by rw [show Ex.physQubo.indexToLabel.length = 3 by decide +kernel]; exact Ex.repeats_honest, by decide +kernel,
    Ex.exists_of_okAnd (by decide +kernel)⟩

/-- A model with two arrays that share a label. -/
def Ex.clashes : LModel := Ex.after (LModel.new .qubo "1") (do
  let _ ← createVars "x[0]" [1]
  let _ ← createVars "x" [1, 1]
  addInteraction 1 (.var ⟨.binary, "x[0][0]"⟩) (.str "") (.num 1) (.num 1) .none .none)

/-- Without distinct labels, different vectors are merged: the two indices decode to one variable. -/
theorem C127_vectors_refuted : ∃ p m', (toPhysical ⟨0, fun _ => ""⟩ (fun _ _ => 0) (fun _ => "1") []).run Ex.clashes = .ok p m' ∧
    ∃ rs log', (optiganRecords ⟨some "e", some "t", none⟩ (fun _ => ⟨200, [[0, 1], [1, 1]], [1, 1]⟩) p 10 10000 true).run [] =
      .ok rs log' ∧ decide (rs = [⟨[("x[0][0]", 1)], 1, 2⟩]) = true := by
  refine ⟨_, _, rfl, Ex.exists_of_okAnd ?_⟩
  decide +kernel

/-- **C127** For models made by calls with own names for their interactions and arrays whose names have no bracket. -/
theorem C127_made_partial {m m' : LModel} {env env' : Env} {clks : Nat → Nat → ℚ} {ids : Nat → String} {ph : List (String × ℚ)}
    {c : OptiganSolver} {server : OptiganRequest → OptiganResponse} {n t : Int} {d : Bool} {log log' : List OptiganRequest}
    (hm : Made env (TidyOwn env) m) (hb : ∀ n ∈ dkeys m.vars, '[' ∉ n.toList)
    (hc : (toPhysical env' clks ids ph).run m = .ok p m') (hs : Honest server p.indexToLabel.length)
    (h : (optiganRecords c server p n t d).run log = .ok rs log') :
    ∃ req, log' = log ++ [req] ∧ (∀ r ∈ rs, ∃ x ∈ (server req).spins, r.sample = (p.indexToLabel.map (·.2)).zip x ∧
        r.occurrences = (server req).spins.count x) ∧
      ∀ x ∈ (server req).spins, (p.indexToLabel.map (·.2)).zip x ∈ rs.map (·.sample) := by
  refine C127_vectors ?_ hs h
  rw [index_values hc]
  exact (C24_inverse_iff hc).mp (C24_made_partial hm hb hc)

end Sawatabi.Props
