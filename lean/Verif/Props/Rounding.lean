import Verif.Lemmas.Rounding
import Verif.Props.SolverEnergy
import Mathlib.Data.List.Perm.Subperm

/-!
# The annealing in floating point (C109)
-/

namespace Sawatabi
namespace Props

variable {p : Physical} {ls : List String} {s : Problem} {γ : Type} {ar : Arith} {rng : Rng γ} {exp : ℚ → Except Err ℚ}
  {o : Options} {rands : List ℚ} {u w top : ℚ} {D : Nat} {init : Option Sample} {g g' : γ} {a : Annealed}

/-! ## From the prepared problem to the model -/

theorem toBqm_mass (p : Physical) : (p.toBqm 1).mass = p.mass := by
  simp [Bqm.mass, Physical.mass, Physical.toBqm]

theorem prepared_mass (h : s.Ok ls) : s.bqm.mass ≤ s.model.mass := by
  rw [h.bqm, h.original, ← toBqm_mass]
  split
  · exact le_rfl
  · exact Bqm.toSpin_mass (h.ready.wf 1)

theorem prepared_multiples (h : s.Ok ls) (hm : s.model.Multiples w) : s.bqm.Multiples (w / 4) := by
  have h1 : (s.model.toBqm 1).Multiples w := by
    obtain ⟨⟨z, hz⟩, h2, h3⟩ := hm
    refine ⟨⟨z, by simp [Physical.toBqm, hz]⟩, ?_, ?_⟩
    · intro kv hkv
      simp only [Physical.toBqm, List.mem_map] at hkv
      obtain ⟨e, he, rfl⟩ := hkv
      simpa using h2 e he
    · intro kv hkv
      simp only [Physical.toBqm, List.mem_map] at hkv
      obtain ⟨e, he, rfl⟩ := hkv
      simpa using h3 e he
  rw [h.bqm, h.original]
  split
  · exact h1.quarter
  · exact Bqm.toSpin_multiples h1

theorem prepared_quad (h : s.Ok ls) : dkeys s.bqm.quad = dkeys s.model.quad := by
  rw [h.bqm, h.original]
  split
  · exact (toBqm_keys _ 1).2
  · rw [← (toBqm_keys s.model 1).2]
    simp [Bqm.toSpin, dkeys, Function.comp_def]

theorem prepared_degree (h : s.Ok ls) (hD : s.model.DegreeAtMost D) (v : String) : (s.bqm.neighbours v).length ≤ D := by
  have e : ∀ l : List ((String × String) × ℚ), (l.filterMap fun kv =>
      if kv.1.1 = v then some (kv.1.2, kv.2) else if kv.1.2 = v then some (kv.1.1, kv.2) else none).length =
      ((dkeys l).filter fun k => k.1 = v ∨ k.2 = v).length := by
    intro l
    induction l with
    | nil => rfl
    | cons kv l ih =>
      obtain ⟨⟨x, y⟩, c⟩ := kv
      simp only [List.filterMap_cons, dkeys, List.map_cons] at ih ⊢
      by_cases h1 : x = v
      · simp [h1, ih]
      · by_cases h2 : y = v
        · simp [h1, h2, ih]
        · simp [h1, h2, ih]
  have e' : ∀ l : List ((String × String) × ℚ), (l.filter fun kv => kv.1.1 = v ∨ kv.1.2 = v).length =
      ((dkeys l).filter fun k => k.1 = v ∨ k.2 = v).length := by
    intro l
    simp only [dkeys, List.filter_map, List.length_map]
    rfl
  unfold Bqm.neighbours
  rw [e, prepared_quad h, ← e']
  exact hD v

theorem prepared_linear (h : s.Ok ls) : s.bqm.linear.length ≤ ls.length := by
  have h1 : (dkeys s.bqm.linear).length = s.bqm.linear.length := by simp [dkeys]
  rw [← h1]
  exact (List.subperm_of_subset h.wf.linear fun l hl => (h.on l).mp (s.bqm.vars_linear l hl)).length_le

theorem prepared_quads (h : s.Ok ls) : s.bqm.quad.length = s.model.quad.length := by
  have := congrArg List.length (prepared_quad h)
  simpa [dkeys] using this

theorem driftBound_mono {A A' e e' : ℚ} (hu : 0 ≤ u) (hA : A ≤ A') (he : e ≤ e') (k : Nat) :
    driftBound u D A e k ≤ driftBound u D A' e' k := by
  unfold driftBound
  have h1 : (0 : ℚ) ≤ (1 + u) ^ k := by positivity
  have h2 : (0 : ℚ) ≤ ((List.range k).map fun i => (1 + u) ^ i).sum := List.sum_nonneg fun a ha => by
    obtain ⟨i, _, rfl⟩ := List.mem_map.mp ha
    positivity
  have h3 : (1 : ℚ) ≤ (1 + u) ^ D := one_le_pow₀ (by linarith)
  have h4 : 0 ≤ 2 * (1 + u) * ((1 + u) ^ D - 1) + u := by nlinarith
  exact add_le_add (mul_le_mul_of_nonneg_left he h1) (mul_le_mul_of_nonneg_left hA (mul_nonneg h2 h4))

/-- The error that the sum of an energy with `n` variables and `m` interactions can have. -/
theorem start_error (hu : 0 ≤ u) (h : s.Ok ls) :
    ((1 + u) ^ (1 + s.bqm.linear.length + s.bqm.quad.length) - 1) * s.bqm.mass ≤
      ((1 + u) ^ (1 + ls.length + s.model.quad.length) - 1) * s.model.mass := by
  have h1 := prepared_mass h
  have h2 : (1 + u) ^ (1 + s.bqm.linear.length + s.bqm.quad.length) ≤ (1 + u) ^ (1 + ls.length + s.model.quad.length) := by
    apply pow_le_pow_right₀ (by linarith)
    have := prepared_linear h
    have := prepared_quads h
    omega
  have h3 : (1 : ℚ) ≤ (1 + u) ^ (1 + ls.length + s.model.quad.length) := one_le_pow₀ (by linarith)
  have h4 : 0 ≤ s.bqm.mass := le_trans (abs_nonneg _) (s.bqm.energy_abs (σ := fun _ => 0) (by simp))
  exact mul_le_mul (by linarith) h1 h4 (by linarith)

/-! ## C109: energies up to rounding -/

/-- For whatever spin coefficients dimod's conversion has produced (rounded or not): the energy that `annealing` reports
is the energy of the reported sample in these coefficients, up to the bound. -/
theorem C109_energy_spins (hs : s.Arrays ls) (hr : rng.Ok) (hi : InitOk ls init) (hu : 0 ≤ u)
    (hround : Relative u ar.round) (hsum : SumsUp ar.round ar.energy s.bqm ls)
    (hD : ∀ v, (s.bqm.neighbours v).length ≤ D)
    (h : annealingR ar rng exp s o init g = .ok (a, g')) :
    |a.energy - (- s.bqm.energy a.sample.assign + 2 * s.original.offset)| ≤
      (1 + u) * driftBound u D s.bqm.mass
        (((1 + u) ^ (1 + s.bqm.linear.length + s.bqm.quad.length) - 1) * s.bqm.mass) a.acceptanceHist.sum +
        u * |- s.bqm.energy a.sample.assign + 2 * s.original.offset| := by
  obtain ⟨x, e, h1, h2, h3, -⟩ := run_near hs (flipNear_drift hs hu hround hD _) hr
    (by
      have := energyWithin_relative hu hround hsum
      unfold driftBound
      simpa using this) hi h
  rw [h1, zip_assign hs.ready.nodup h3.length, h2]
  have herr := h3.error
  generalize driftBound u D s.bqm.mass _ a.acceptanceHist.sum = K at herr ⊢
  generalize - s.bqm.energy (spinAssign ls x) = E at herr ⊢
  generalize s.original.offset = q
  have hy : |e + q * 2 - (E + 2 * q)| ≤ K := by
    rwa [show e + q * 2 - (E + 2 * q) = e - E by ring]
  have hyy : |e + q * 2| ≤ K + |E + 2 * q| := by
    have := abs_add_le (e + q * 2 - (E + 2 * q)) (E + 2 * q)
    rw [sub_add_cancel] at this
    linarith
  have hrd := hround (e + q * 2)
  have h4 := abs_add_le (ar.round (e + q * 2) - (e + q * 2)) (e + q * 2 - (E + 2 * q))
  rw [sub_add_sub_cancel] at h4
  have h5 := mul_le_mul_of_nonneg_left hyy hu
  linarith

/-- The energy that `annealing` reports in floats differs from the energy of the sample it reports by at most an
explicit bound: `u` is the relative error of one operation, `D` the largest number of interactions of a variable, the
sum of the absolute coefficients is the scale, and the number of accepted flips is the exponent. Whatever the flips and
temperatures were. -/
theorem C109_energy (hp : p.Ready ls) (hs : prepare p = .ok s) (hr : rng.Ok) (hi : InitOk ls init) (hu : 0 ≤ u)
    (hround : Relative u ar.round) (hsum : SumsUp ar.round ar.energy s.bqm ls) (hD : p.DegreeAtMost D)
    (h : annealingR ar rng exp s o init g = .ok (a, g')) :
    |a.energy - p.energy (changeVartype p.mtype.vtype a.sample).assign| ≤
      (1 + u) * driftBound u D p.mass (((1 + u) ^ (1 + ls.length + p.quad.length) - 1) * p.mass) a.acceptanceHist.sum +
        u * |p.energy (changeVartype p.mtype.vtype a.sample).assign| := by
  obtain ⟨hok, rfl⟩ := prepare_ok' hp hs
  obtain ⟨x, e, h1, h2, h3, -⟩ := run_near hok.toArrays (flipNear_drift hok.toArrays hu hround (prepared_degree hok hD) _) hr
    (by
      have := energyWithin_relative hu hround hsum
      unfold driftBound
      simpa using this) hi h
  have hE := energyAt_eq hok h3.length h3.spins
  have hsmp : changeVartype s.model.mtype.vtype a.sample = s.model.sampleOf ls x := by
    rw [h1, ← decode_eq hok.ready h3.length, sampleOf_eq hok h3.length]
  have ho : s.original.offset = s.model.offset := by rw [hok.original]; simp [Physical.toBqm]
  rw [hsmp, h2, ho]
  unfold Physical.energyAt at hE
  have herr := h3.error
  rw [hE] at herr
  generalize s.model.energy (s.model.sampleOf ls x).assign = E at herr ⊢
  have hmono := driftBound_mono (D := D) hu (prepared_mass hok) (start_error hu hok) a.acceptanceHist.sum
  generalize driftBound u D s.model.mass (((1 + u) ^ (1 + ls.length + s.model.quad.length) - 1) * s.model.mass)
    a.acceptanceHist.sum = K at hmono ⊢
  have hy : |e + s.model.offset * 2 - E| ≤ K := by
    refine le_trans (le_of_eq ?_) (le_trans herr hmono)
    congr 1
    ring
  have hyy : |e + s.model.offset * 2| ≤ K + |E| := by
    have := abs_add_le (e + s.model.offset * 2 - E) E
    rw [sub_add_cancel] at this
    linarith
  have hrd := hround (e + s.model.offset * 2)
  have h4 := abs_add_le (ar.round (e + s.model.offset * 2) - (e + s.model.offset * 2)) (e + s.model.offset * 2 - E)
  rw [sub_add_sub_cancel] at h4
  have h5 := mul_le_mul_of_nonneg_left hyy hu
  linarith

/-- Entry `k` of the energy history is the energy of the state before sweep `k`, relative to `2 * offset`, up to the
bound for the flips accepted before. -/
theorem C109_history (hp : p.Ready ls) (hs : prepare p = .ok s) (hr : rng.Ok) (hi : InitOk ls init) (hu : 0 ≤ u)
    (hround : Relative u ar.round) (hsum : SumsUp ar.round ar.energy s.bqm ls) (hD : p.DegreeAtMost D)
    (h : annealingR ar rng exp s o init g = .ok (a, g')) :
    a.energyHist.length = o.numSweeps.toNat ∧ ∃ x gi t0 rands, initialSpins rng s init g = .ok (x, gi) ∧ t0.x = x ∧
      ∀ k < o.numSweeps.toNat, ∃ tk e, (List.range k).foldlM (sweepStepR ar rng exp s o rands) t0 = .ok tk ∧
        a.energyHist[k]? = some e ∧
        |e - (p.energyAt ls tk.x - 2 * p.offset)| ≤
          driftBound u D p.mass (((1 + u) ^ (1 + ls.length + p.quad.length) - 1) * p.mass) (a.acceptanceHist.take k).sum := by
  obtain ⟨hok, rfl⟩ := prepare_ok' hp hs
  obtain ⟨x, gi, ts, rands, t, h1, h2, h3, rfl⟩ := annealingR_ok h
  obtain ⟨x', gi', i1, i2, i3, _⟩ := initialSpins_ok hok.toArrays hr hi g
  rw [h1] at i1
  cases i1
  obtain ⟨s1, ⟨e, s2, s3⟩, s4, s5⟩ := startStateR_ok h2
  rw [decode_eq hok.ready i2] at s2
  have h0 : Near s ls (driftBound u D s.bqm.mass
      (((1 + u) ^ (1 + s.bqm.linear.length + s.bqm.quad.length) - 1) * s.bqm.mass)) ts.x ts.energy 0 := by
    refine ⟨by rw [s1]; exact i2, by rw [s1]; exact i3, ?_⟩
    rw [s1, s3, neg_sub_neg, abs_sub_comm]
    have := energyWithin_relative hu hround hsum x i2 i3 e s2
    unfold driftBound
    simpa using this
  obtain ⟨-, r2, -, r4⟩ := sweepsR_near (t := { ts with rng := (rng.random (o.numSweeps.toNat * s.size) ts.rng).2 })
    hok.toArrays (flipNear_drift hok.toArrays hu hround (prepared_degree hok hD) _) hr _ h0 s5 s4 h3
  refine ⟨r2, x, gi, { ts with rng := (rng.random (o.numSweeps.toNat * s.size) ts.rng).2 }, rands, h1, s1, fun k hk => ?_⟩
  obtain ⟨tk, b1, b2, b3⟩ := r4 k hk
  refine ⟨tk, tk.energy, b1, b2, ?_⟩
  have herr := b3.error
  rw [energyAt_eq hok b3.length b3.spins] at herr
  exact le_trans herr (driftBound_mono hu (prepared_mass hok) (start_error hu hok) _)

/-- Rounding can turn a decision only near a tie: a flip that is accepted without a random number raises the energy by
at most the error of a difference, and a flip that lowers it by more than that is always accepted. -/
theorem C109_decision (hp : p.Ready ls) (hs : prepare p = .ok s) (hu : 0 ≤ u) (hround : Relative u ar.round)
    (hD : p.DegreeAtMost D) {T : ℚ} {t t' : Inner} {i : Nat} {xi : ℤ} (hlen : t.x.length = ls.length) (hsp : IsSpins t.x)
    (hxi : t.x[i]? = some xi) (h : innerStepR ar exp s rands T t i = .ok t') :
    (t'.x = t.x ∨ t'.x = t.x.set i (xi * -1)) ∧
    (t'.used = t.used → t'.x = t.x.set i (xi * -1) ∧
      p.energyAt ls t'.x - p.energyAt ls t.x ≤ 2 * ((1 + u) ^ D - 1) * p.mass) ∧
    (p.energyAt ls (t.x.set i (xi * -1)) - p.energyAt ls t.x < - (2 * ((1 + u) ^ D - 1) * p.mass) →
      t'.x = t.x.set i (xi * -1) ∧ t'.used = t.used) := by
  obtain ⟨hok, rfl⟩ := prepare_ok' hp hs
  have hlt : i < t.x.length := (List.getElem?_eq_some_iff.mp hxi).1
  have hil : i < ls.length := by omega
  have hli := List.getElem?_eq_getElem hil
  have hsp' : IsSpins (t.x.set i (xi * -1)) := by
    intro a ha
    rcases List.mem_or_eq_of_mem_set ha with h' | rfl
    · exact hsp a h'
    · rcases hsp _ (List.mem_of_getElem? hxi) with e | e <;> rw [e] <;> simp
  have hdelta : s.delta ls t.x ls[i] = s.model.energyAt ls (t.x.set i (xi * -1)) - s.model.energyAt ls t.x := by
    have h1 := energyAt_eq hok hlen hsp
    have h2 := energyAt_eq hok (x := t.x.set i (xi * -1)) (by simpa using hlen) hsp'
    unfold Problem.delta
    rw [← spinAssign_flip hok.ready.nodup hlen hli hxi]
    linarith
  obtain ⟨d, hd, herr⟩ := calcDiffR_error hok.toArrays hlen hsp hu hround (prepared_degree hok hD) hli
  rw [hdelta] at herr
  have hmass : 2 * ((1 + u) ^ D - 1) * s.bqm.mass ≤ 2 * ((1 + u) ^ D - 1) * s.model.mass := by
    have h1 : (1 : ℚ) ≤ (1 + u) ^ D := one_le_pow₀ (by linarith)
    exact mul_le_mul_of_nonneg_left (prepared_mass hok) (by linarith)
  have herr' := abs_le.mp (le_trans herr hmass)
  unfold innerStepR at h
  rw [hd, Except.bind_ok, bind_eq_ok] at h
  obtain ⟨⟨ok, used⟩, hacc, h⟩ := h
  simp only at h
  unfold isAcceptableR at hacc
  by_cases hle : d ≤ 0
  · rw [if_pos hle] at hacc
    cases hacc
    simp only [if_true] at h
    rw [listGet_ok.mpr hxi, Except.bind_ok, listSet_ok.mpr ⟨hlt, rfl⟩, Except.bind_ok, Except.pure_ok] at h
    cases h
    exact ⟨.inr rfl, fun _ => ⟨rfl, by simp only; linarith [herr'.1]⟩, fun _ => ⟨rfl, rfl⟩⟩
  · rw [if_neg hle] at hacc
    have hacc' : ∃ r q : ℚ, (decide (r < q), t.used + 1) = (ok, used) := by
      by_cases hT : T = 0
      · simp only [hT, if_true, Except.bind_ok] at hacc
        rw [bind_eq_ok] at hacc
        obtain ⟨r, -, hacc⟩ := hacc
        exact ⟨r, 0, Except.ok.inj hacc⟩
      · simp only [hT, if_false] at hacc
        rw [bind_eq_ok] at hacc
        obtain ⟨q, -, hacc⟩ := hacc
        rw [bind_eq_ok] at hacc
        obtain ⟨r, -, hacc⟩ := hacc
        exact ⟨r, q, Except.ok.inj hacc⟩
    obtain ⟨r, q, hacc⟩ := hacc'
    cases hacc
    refine ⟨?_, fun hused => absurd hused ?_, fun hlow => absurd hlow ?_⟩
    · by_cases hrq : r < q
      · simp only [hrq, decide_true, if_true] at h
        rw [listGet_ok.mpr hxi, Except.bind_ok, listSet_ok.mpr ⟨hlt, rfl⟩, Except.bind_ok, Except.pure_ok] at h
        cases h
        exact .inr rfl
      · simp only [hrq, decide_false, Bool.false_eq_true, if_false, Except.pure_ok] at h
        cases h
        exact .inl rfl
    · by_cases hrq : r < q
      · simp only [hrq, decide_true, if_true] at h
        rw [listGet_ok.mpr hxi, Except.bind_ok, listSet_ok.mpr ⟨hlt, rfl⟩, Except.bind_ok, Except.pure_ok] at h
        cases h
        simp
      · simp only [hrq, decide_false, Bool.false_eq_true, if_false, Except.pure_ok] at h
        cases h
        simp
    · linarith [herr'.1, herr'.2]

theorem spin_energy_multiple (hm : p.Multiples w) {σ : Assign} (hσ : ∀ l, ∃ z : ℤ, σ l = z) : ∃ z : ℤ, p.energy σ = z * w := by
  obtain ⟨⟨z1, h1⟩, h2, h3⟩ := hm
  obtain ⟨z2, e2⟩ := multiples_sum p.linear (fun kv => kv.2 * σ kv.1) (w := w) fun kv hkv => by
    obtain ⟨z, hz⟩ := h2 kv hkv
    obtain ⟨y, hy⟩ := hσ kv.1
    exact ⟨z * y, by rw [hz, hy]; push_cast; ring⟩
  obtain ⟨z3, e3⟩ := multiples_sum p.quad (fun kv => kv.2 * (σ kv.1.1 * σ kv.1.2)) (w := w) fun kv hkv => by
    obtain ⟨z, hz⟩ := h3 kv hkv
    obtain ⟨y, hy⟩ := hσ kv.1.1
    obtain ⟨y', hy'⟩ := hσ kv.1.2
    exact ⟨z * (y * y'), by rw [hz, hy, hy']; push_cast; ring⟩
  exact ⟨z1 - z2 - z3, by unfold Physical.energy; rw [h1, e2, e3]; push_cast; ring⟩

theorem energy_mass (p : Physical) {σ : Assign} (hσ : ∀ l, |σ l| ≤ 1) : |p.energy σ| ≤ p.mass := by
  have h1 := (p.toBqm (-1)).energy_abs hσ
  have h2 : (p.toBqm (-1)).energy σ = p.energy σ := by
    have e1 : ((p.toBqm (-1)).linear.map fun kv => kv.2 * σ kv.1).sum = - (p.linear.map fun kv => kv.2 * σ kv.1).sum := by
      simp only [Physical.toBqm, List.map_map, Function.comp_def]
      generalize p.linear = l
      induction l with
      | nil => simp
      | cons a l ih => simp only [List.map_cons, List.sum_cons, ih]; ring
    have e2 : ((p.toBqm (-1)).quad.map fun kv => kv.2 * (σ kv.1.1 * σ kv.1.2)).sum =
        - (p.quad.map fun kv => kv.2 * (σ kv.1.1 * σ kv.1.2)).sum := by
      simp only [Physical.toBqm, List.map_map, Function.comp_def]
      generalize p.quad = l
      induction l with
      | nil => simp
      | cons a l ih => simp only [List.map_cons, List.sum_cons, ih]; ring
    unfold Bqm.energy Physical.energy
    rw [e1, e2]
    simp only [Physical.toBqm]
    ring
  have h3 : (p.toBqm (-1)).mass = p.mass := by
    simp [Bqm.mass, Physical.mass, Physical.toBqm, Function.comp_def]
  rwa [h2, h3] at h1

theorem sampleOf_values {x : List ℤ} (hx : IsSpins x) (l : String) :
    (∃ z : ℤ, (p.sampleOf ls x).assign l = z) ∧ |(p.sampleOf ls x).assign l| ≤ 1 := by
  refine ⟨⟨_, rfl⟩, ?_⟩
  unfold Sample.assign
  cases hd : dget (p.sampleOf ls x) l with
  | none => simp
  | some a =>
    have hm := dget_mem hd
    unfold Physical.sampleOf at hm
    cases ht : p.mtype.vtype with
    | spin =>
      rw [ht] at hm
      rcases hx a (List.of_mem_zip hm).2 with rfl | rfl <;> simp
    | binary =>
      rw [ht] at hm
      obtain ⟨b, hb, rfl⟩ := List.mem_map.mp (List.of_mem_zip hm).2
      rcases hx b hb with rfl | rfl <;> simp

/-- If the coefficients are multiples of a number `w` and floats hold the multiples of `w / 4` up to the sum of the
absolute coefficients, then the reported energy is the energy of the reported sample, and every entry of the history is
the energy of a state, all without any error. -/
theorem C109_exact (hp : p.Ready ls) (hs : prepare p = .ok s) (hr : rng.Ok) (hi : InitOk ls init) (hm : p.Multiples w)
    (hround : Keeps (w / 4) top ar.round) (htop : p.mass ≤ top) (hsum : SumsUp ar.round ar.energy s.bqm ls)
    (h : annealingR ar rng exp s o init g = .ok (a, g')) :
    a.energy = p.energy (changeVartype p.mtype.vtype a.sample).assign ∧
    ∃ x gi t0 rands, initialSpins rng s init g = .ok (x, gi) ∧ t0.x = x ∧
      ∀ k < o.numSweeps.toNat, ∃ tk, (List.range k).foldlM (sweepStepR ar rng exp s o rands) t0 = .ok tk ∧
        a.energyHist[k]? = some (p.energyAt ls tk.x - 2 * p.offset) := by
  obtain ⟨hok, rfl⟩ := prepare_ok' hp hs
  have hmb := prepared_multiples hok hm
  have htb := le_trans (prepared_mass hok) htop
  have hK := flipNear_exact hok.toArrays hround hmb htb
  have hE0 := energyWithin_exact hround hmb htb hsum
  constructor
  · obtain ⟨x, e, h1, h2, h3, -⟩ := run_near hok.toArrays hK hr hE0 hi h
    have hE := energyAt_eq hok h3.length h3.spins
    have hsmp : changeVartype s.model.mtype.vtype a.sample = s.model.sampleOf ls x := by
      rw [h1, ← decode_eq hok.ready h3.length, sampleOf_eq hok h3.length]
    have ho : s.original.offset = s.model.offset := by rw [hok.original]; simp [Physical.toBqm]
    have herr := h3.error
    rw [abs_nonpos_iff, sub_eq_zero, hE] at herr
    rw [hsmp, h2, ho, herr]
    unfold Physical.energyAt
    rw [show s.model.energy (s.model.sampleOf ls x).assign - 2 * s.model.offset + s.model.offset * 2 =
      s.model.energy (s.model.sampleOf ls x).assign by ring]
    obtain ⟨z, hz⟩ := spin_energy_multiple hm fun l => (sampleOf_values (p := s.model) (ls := ls) h3.spins l).1
    have hz' : s.model.energy (s.model.sampleOf ls x).assign = ((4 * z : ℤ) : ℚ) * (w / 4) := by rw [hz]; push_cast; ring
    have habs := energy_mass s.model fun l => (sampleOf_values (p := s.model) (ls := ls) h3.spins l).2
    rw [hz'] at habs ⊢
    exact hround _ (le_trans habs htop)
  · obtain ⟨x, gi, ts, rands, t, h1, h2, h3, rfl⟩ := annealingR_ok h
    obtain ⟨x', gi', i1, i2, i3, _⟩ := initialSpins_ok hok.toArrays hr hi g
    rw [h1] at i1
    cases i1
    obtain ⟨s1, ⟨e, s2, s3⟩, s4, s5⟩ := startStateR_ok h2
    rw [decode_eq hok.ready i2] at s2
    have h0 : Near s ls (fun _ => 0) ts.x ts.energy 0 := by
      refine ⟨by rw [s1]; exact i2, by rw [s1]; exact i3, ?_⟩
      rw [s1, s3, neg_sub_neg, abs_sub_comm]
      exact hE0 x i2 i3 e s2
    obtain ⟨-, r2, -, r4⟩ := sweepsR_near (t := { ts with rng := (rng.random (o.numSweeps.toNat * s.size) ts.rng).2 })
      hok.toArrays hK hr _ h0 s5 s4 h3
    refine ⟨x, gi, { ts with rng := (rng.random (o.numSweeps.toNat * s.size) ts.rng).2 }, rands, h1, s1, fun k hk => ?_⟩
    obtain ⟨tk, b1, b2, b3⟩ := r4 k hk
    refine ⟨tk, b1, ?_⟩
    have herr := b3.error
    rw [abs_nonpos_iff, sub_eq_zero, energyAt_eq hok b3.length b3.spins] at herr
    rw [b2, herr]

/-- Rounding to `p` binary digits has the relative error `2^-p`, and it keeps every multiple of a power of two with at
most `p` digits. -/
theorem C109_nearest (d : Nat) : Relative (1 / 2 ^ d) (nearest d) ∧
    (1 ≤ d → ∀ k : ℤ, Keeps (2 ^ k) (2 ^ d * 2 ^ k) (nearest d)) :=
  ⟨nearest_relative d, fun hd k => nearest_keeps hd k⟩

/-- The floats of Python: with integer coefficients whose absolute values add up to at most `2^51`, the reported energy
is exact. -/
theorem C109_integers (hp : p.Ready ls) (hs : prepare p = .ok s) (hr : rng.Ok) (hi : InitOk ls init) (hm : p.Multiples 1)
    (hround : ar.round = nearest 53) (htop : p.mass ≤ 2 ^ 51) (hsum : SumsUp ar.round ar.energy s.bqm ls)
    (h : annealingR ar rng exp s o init g = .ok (a, g')) :
    a.energy = p.energy (changeVartype p.mtype.vtype a.sample).assign := by
  refine (C109_exact (w := 1) (top := 2 ^ 51) hp hs hr hi hm ?_ htop hsum h).1
  rw [hround]
  have := nearest_keeps (p := 53) (by norm_num) (-2)
  have e1 : (2 : ℚ) ^ (-2 : ℤ) = 1 / 4 := by norm_num
  rw [e1] at this
  have e2 : (2 : ℚ) ^ 53 * (1 / 4) = 2 ^ 51 := by norm_num
  rwa [e2] at this

/-- Floats with `d` binary digits; dimod adds up an energy in the order of the coefficients. -/
def _root_.Sawatabi.Ex.floats (d : Nat) : Arith where
  round := nearest d
  energy b smp := .ok (roundedSum (nearest d) 0 (b.summands smp.assign))

theorem floats_sumsUp (d : Nat) (b : Bqm) (hn : ls.Nodup) : SumsUp (Ex.floats d).round (Ex.floats d).energy b ls := by
  intro x hx _ q hq
  refine ⟨_, List.Perm.refl _, ?_⟩
  rw [← zip_assign hn hx]
  exact (Except.ok.inj hq).symm

/-- A model with a large and a small coefficient. -/
def _root_.Sawatabi.Ex.steep : Physical :=
  ⟨.ising, [("x[0]", 2 ^ 53)], [(("x[0]", "x[1]"), 1)], 0, ["x[0]", "x[1]"], [("x[0]", 0), ("x[1]", 1)],
    [(0, "x[0]"), (1, "x[1]")]⟩

/-- A run in floats. -/
def _root_.Sawatabi.Ex.annealed (d : Nat) (p : Physical) (o : Options) : Except Err (Annealed × Nat) :=
  prepare p >>= fun s => annealingR (Ex.floats d) Ex.rng Ex.exp s o none 0

theorem steep_ready : Ex.steep.Ready ["x[0]", "x[1]"] := by
  refine ⟨by decide +kernel, by decide +kernel, by decide +kernel, by decide +kernel, fun l => ?_, by decide +kernel, by decide +kernel⟩
  rw [show Ex.steep.linear = [("x[0]", 2 ^ 53)] by decide +kernel, show Ex.steep.quad = [(("x[0]", "x[1]"), 1)] by decide +kernel]
  simp only [dkeys, List.map_cons, List.map_nil, List.mem_cons, List.not_mem_nil, or_false, exists_eq_left, eq_comm]
  tauto

theorem steep_multiples : Ex.steep.Multiples 1 :=
  ⟨⟨0, by decide +kernel⟩, by
    intro kv hkv
    rw [show Ex.steep.linear = [("x[0]", 2 ^ 53)] by decide +kernel, List.mem_singleton] at hkv
    exact ⟨2 ^ 53, by rw [hkv]; norm_num⟩, by
    intro kv hkv
    rw [show Ex.steep.quad = [(("x[0]", "x[1]"), 1)] by decide +kernel, List.mem_singleton] at hkv
    exact ⟨1, by rw [hkv]; norm_num⟩⟩

/-- Without the limit on the coefficients the reported energy is not that of the sample: a run on a model with the
integer coefficients `2^53` and `1` ends in a state of energy `-2^53 - 1` and reports `-2^53`. -/
theorem C109_integers_refuted : ¬ ∀ (p : Physical) (ls : List String) (s : Problem) (a : Annealed) (g' : Nat), p.Ready ls →
    prepare p = .ok s → p.Multiples 1 → SumsUp (nearest 53) (Ex.floats 53).energy s.bqm ls →
    annealingR (Ex.floats 53) Ex.rng Ex.exp s Ex.options none 0 = .ok (a, g') →
    a.energy = p.energy (changeVartype p.mtype.vtype a.sample).assign := by
  intro hall
  have hrun : ∃ s a g', prepare Ex.steep = .ok s ∧
      annealingR (Ex.floats 53) Ex.rng Ex.exp s Ex.options none 0 = .ok (a, g') ∧
      a.energy = - 2 ^ 53 ∧ Ex.steep.energy (changeVartype .spin a.sample).assign = - 2 ^ 53 - 1 := by
    have hdec : (Ex.annealed 53 Ex.steep Ex.options).toOption.map (fun r =>
        (r.1.energy, Ex.steep.energy (changeVartype .spin r.1.sample).assign)) = some (- 2 ^ 53, - 2 ^ 53 - 1) := by
      decide +kernel
    cases h1 : Ex.annealed 53 Ex.steep Ex.options with
    | error e => rw [h1] at hdec; cases hdec
    | ok r =>
    rw [h1] at hdec
    have h2 := Option.some.inj hdec
    rw [Prod.mk.injEq] at h2
    unfold Ex.annealed at h1
    rw [bind_eq_ok] at h1
    obtain ⟨s, h3, h4⟩ := h1
    exact ⟨s, r.1, r.2, h3, h4, h2⟩
  obtain ⟨s, a, g', h1, h2, h3, h4⟩ := hrun
  have := hall Ex.steep _ s a g' steep_ready h1 steep_multiples (floats_sumsUp 53 _ steep_ready.nodup) h2
  rw [h3, show Ex.steep.mtype.vtype = .spin from rfl, h4] at this
  norm_num at this

/-- Runs in floats with 3 and with 53 binary digits: the reported energy, the energy of the sample, the sum of the
absolute coefficients. -/
example : (Ex.annealed 3 Ex.physQubo Ex.options).toOption.map (fun r =>
      (r.1.energy, Ex.physQubo.energy (changeVartype .binary r.1.sample).assign, r.1.acceptanceHist.sum)) = some (10, 9, 9) ∧
    (Ex.annealed 53 Ex.physQubo Ex.options).toOption.map (fun r =>
      (r.1.energy, Ex.physQubo.energy (changeVartype .binary r.1.sample).assign, r.1.acceptanceHist.sum)) = some (9, 9, 9) ∧
    Ex.physQubo.mass = 21 := by decide +kernel

/-- The bound for 53 digits in the run of `C109_integers_refuted`: two variables, one interaction, three flips. -/
example : (1 + 1 / 2 ^ 53) * driftBound (1 / 2 ^ 53) 1 Ex.steep.mass
    (((1 + 1 / 2 ^ 53) ^ (1 + 2 + 1) - 1) * Ex.steep.mass) 3 + 1 / 2 ^ 53 * (2 ^ 53 + 1) < 15 := by decide +kernel

example : Ex.steep.DegreeAtMost 1 ∧ SumsUp (Ex.floats 53).round (Ex.floats 53).energy (Ex.steep.toBqm 1) ["x[0]", "x[1]"] ∧
    InitOk ["x[0]", "x[1]"] none ∧ Relative (1 / 2 ^ 53) (Ex.floats 53).round := by
  refine ⟨fun v => ?_, floats_sumsUp 53 _ steep_ready.nodup, trivial, nearest_relative 53⟩
  rw [show Ex.steep.quad = [(("x[0]", "x[1]"), 1)] by decide +kernel]
  exact List.length_filter_le _ _

end Props
end Sawatabi
