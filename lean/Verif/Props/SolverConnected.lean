import Verif.Props.SolverReach
import Verif.Props.Depends
import Verif.Lemmas.Boltzmann

/-!
# In random order, enough sweeps lead from every state to every state (C99)
-/

namespace Sawatabi.Props

variable {p : Physical} {s : Problem} {exp : ℚ → Except Err ℚ} {o : Options}

/-- Turning this spin changes the energy of some state. -/
def Matters (E : List ℤ → ℚ) (n i : Nat) : Prop := ∃ w, w.length = n ∧ IsSpins w ∧ E w ≠ E (flipAt w i)

theorem assign_sampleOf {ls : List String} (hn : ls.Nodup) {f : String → ℤ} (hf : ∀ w, p.mtype.vtype.Domain (f w)) {l : String}
    (hl : l ∈ ls) :
    (p.sampleOf ls (ls.map fun l => match p.mtype.vtype with | .spin => f l | .binary => 2 * f l - 1)).assign l = f l := by
  obtain ⟨i, hi, rfl⟩ := List.mem_iff_getElem.mp hl
  unfold Sample.assign Physical.sampleOf
  rw [dget_zip hn (List.getElem?_eq_getElem hi)]
  cases p.mtype.vtype with
  | spin => simp [hi]
  | binary => simp [hi]

/-- Every variable of a model made by calls matters. -/
theorem all_matter (hp : p.FromCalls) (hs : prepare p = .ok s) {i : Nat} (hi : i < p.labels.length) :
    Matters (p.energyAt p.labels) p.labels.length i := by
  have hr := fromCalls_ready hp hs
  have hu : p.Uses p.labels[i] := (hr.mem _).mp (List.getElem_mem hi)
  obtain ⟨f, g, hf, hg, hfg, hne⟩ := (C26_depends hp _).mp hu
  have hv : f p.labels[i] ≠ g p.labels[i] := by
    intro hc
    refine hne (congrArg p.energy (funext fun w => ?_))
    by_cases hw : w = p.labels[i]
    · rw [hw, hc]
    · rw [hfg w hw]
  have key : ∀ f : String → ℤ, (∀ w, p.mtype.vtype.Domain (f w)) → p.energy (fun w => (f w : ℚ)) =
      p.energyAt p.labels (p.labels.map fun l => match p.mtype.vtype with | .spin => f l | .binary => 2 * f l - 1) := by
    intro f hf
    unfold Physical.energyAt
    exact hr.energy_congr fun l hl => (assign_sampleOf hr.nodup hf hl).symm
  rw [key f hf, key g hg] at hne
  refine ⟨p.labels.map fun l => match p.mtype.vtype with | .spin => f l | .binary => 2 * f l - 1, by simp, fun a ha => ?_,
    fun hc => hne (hc.trans (congrArg _ ?_))⟩
  · obtain ⟨l, -, rfl⟩ := List.mem_map.mp ha
    have := hf l
    cases hv : p.mtype.vtype with
    | spin => rw [hv] at this; rcases this with h | h <;> simp [h]
    | binary => rw [hv] at this; rcases this with h | h <;> simp [h]
  · apply List.ext_getElem?
    intro j
    rw [flipAt_get, List.getElem?_map, List.getElem?_map]
    by_cases hj : j < p.labels.length
    · rw [List.getElem?_eq_getElem hj]
      simp only [Option.map_some, Option.some.injEq]
      by_cases hij : i = j
      · subst hij
        have h1 := hf p.labels[i]
        have h2 := hg p.labels[i]
        rw [if_pos rfl]
        cases hv' : p.mtype.vtype with
        | spin =>
          rw [hv'] at h1 h2
          rcases h1 with h1 | h1 <;> rcases h2 with h2 | h2 <;> rw [h1, h2] at hv ⊢ <;> first | rfl | exact absurd rfl hv
        | binary =>
          rw [hv'] at h1 h2
          rcases h1 with h1 | h1 <;> rcases h2 with h2 | h2 <;> rw [h1, h2] at hv ⊢ <;> first | rfl | exact absurd rfl hv
      · rw [if_neg hij, hfg p.labels[j] fun hc => hij ((List.Nodup.getElem_inj_iff hr.nodup).mp hc.symm)]
    · rw [List.getElem?_eq_none (by omega)]
      rfl

/-! ## Two sweeps turn one spin -/

variable {E : List ℤ → ℚ} {n : Nat}

theorem matters_up {i : Nat} (h : Matters E n i) : ∃ w, w.length = n ∧ IsSpins w ∧ E w < E (flipAt w i) := by
  obtain ⟨w, h1, h2, h3⟩ := h
  rcases lt_or_gt_of_ne h3 with h3 | h3
  · exact ⟨w, h1, h2, h3⟩
  · refine ⟨flipAt w i, by rw [flipAt_length, h1], flipAt_spins h2, ?_⟩
    rwa [flipAt_flipAt]

/-- A sweep that turns all spins but one: first those that lead to a state where turning this one raises the energy. -/
theorem all_but_one {i : Nat} (hi : i < n) {w x : List ℤ} (hw : w.length = n) (sw : IsSpins w) (hup : E w < E (flipAt w i))
    (hx : x.length = n) (sx : IsSpins x) (he : x[i]? = w[i]?) :
    ∃ ps, ps.Perm (List.range n) ∧ SweepPath E ps x (flipAt (x.map fun a => a * -1) i) := by
  have hsplit : i ∈ (List.range n).filter fun j => !decide (x[j]? ≠ w[j]?) := by simp [hi, he]
  refine ⟨(List.range n).filter (fun j => decide (x[j]? ≠ w[j]?)) ++
    i :: ((List.range n).filter fun j => !decide (x[j]? ≠ w[j]?)).erase i, ?_, ?_⟩
  · exact (List.Perm.append_left _ (List.perm_cons_erase hsplit).symm).trans
      (List.filter_append_perm (fun j => decide (x[j]? ≠ w[j]?)) _)
  · apply path_append (y := w)
    · have := path_flips (E := E) ((List.range n).filter fun j => decide (x[j]? ≠ w[j]?)) x
      rwa [flips_differ hx hw sx sw] at this
    · refine .stay hup ?_
      have := path_flips (E := E) (((List.range n).filter fun j => !decide (x[j]? ≠ w[j]?)).erase i) w
      convert this using 1
      apply List.ext_getElem?
      intro j
      rw [flips_get, flipAt_get, List.getElem?_map]
      by_cases hj : j < n
      · have hnd : ((List.range n).filter fun j => !decide (x[j]? ≠ w[j]?)).Nodup := List.nodup_range.filter _
        have hxj := List.getElem?_eq_getElem (show j < x.length by omega)
        have hwj := List.getElem?_eq_getElem (show j < w.length by omega)
        by_cases hij : i = j
        · subst hij
          rw [List.count_eq_zero_of_not_mem hnd.not_mem_erase, ← he, hxj]
          simp
        · by_cases hd : x[j]? = w[j]?
          · rw [List.count_eq_one_of_mem (hnd.erase _) (by rw [hnd.mem_erase_iff]; simp [hd, hj, Ne.symm hij]), ← hd, hxj]
            simp [hij]
          · rw [List.count_eq_zero_of_not_mem (by rw [hnd.mem_erase_iff]; simp [hd]), hxj, hwj]
            rw [hxj, hwj] at hd
            simp only [Option.some.injEq] at hd
            simp only [hij, if_false, Option.map_some, pow_zero, mul_one, Option.some.injEq]
            rcases sx _ (List.getElem_mem (show j < x.length by omega)) with a | a <;>
              rcases sw _ (List.getElem_mem (show j < w.length by omega)) with b | b <;> rw [a, b] <;>
              first | rfl | (rw [a, b] at hd; exact absurd rfl hd)
      · rw [List.getElem?_eq_none (by omega), List.getElem?_eq_none (by omega)]
        rfl

theorem negated_spins {x : List ℤ} (h : IsSpins x) : IsSpins (x.map fun a => a * -1) := by
  intro a ha
  obtain ⟨b, hb, rfl⟩ := List.mem_map.mp ha
  rcases h b hb with rfl | rfl
  · exact .inr rfl
  · exact .inl rfl

theorem negated_negated (x : List ℤ) : (x.map fun a => a * -1).map (fun a => a * -1) = x := by
  rw [List.map_map]
  conv_rhs => rw [← List.map_id x]
  apply List.map_congr_left
  intro a _
  simp

theorem negated_flip (x : List ℤ) (i : Nat) : (flipAt x i).map (fun a => a * -1) = flipAt (x.map fun a => a * -1) i := by
  apply List.ext_getElem?
  intro j
  rw [flipAt_get, List.getElem?_map, flipAt_get, List.getElem?_map]
  cases x[j]? with
  | none => rfl
  | some a => by_cases h : i = j <;> simp [h]

theorem all_path {x : List ℤ} (hx : x.length = n) : SweepPath E (List.range n) x (x.map fun a => a * -1) := by
  rw [← flips_all (List.Perm.refl _) hx]
  exact path_flips _ _

theorem two_sweeps {i : Nat} (hi : i < n) (hm : Matters E n i) {x : List ℤ} (hx : x.length = n) (sx : IsSpins x) :
    Reaches E .random n 2 x (flipAt x i) := by
  obtain ⟨w, hw, sw, hup⟩ := matters_up hm
  by_cases he : x[i]? = w[i]?
  · obtain ⟨ps, h1, h2⟩ := all_but_one hi hw sw hup hx sx he
    refine ⟨_, ps, h1, h2, _, List.range n, List.Perm.refl _, all_path (by simp [flipAt_length, hx]), ?_⟩
    show _ = _
    rw [negated_flip, negated_negated]
  · have he' : (x.map fun a => a * -1)[i]? = w[i]? := by
      rw [List.getElem?_map, List.getElem?_eq_getElem (by omega), List.getElem?_eq_getElem (by omega)]
      rw [List.getElem?_eq_getElem (by omega), List.getElem?_eq_getElem (by omega)] at he
      simp only [Option.some.injEq] at he
      simp only [Option.map_some, Option.some.injEq]
      rcases sx _ (List.getElem_mem (show i < x.length by omega)) with a | a <;>
        rcases sw _ (List.getElem_mem (show i < w.length by omega)) with b | b <;> rw [a, b] <;>
        first | rfl | (rw [a, b] at he; exact absurd rfl he)
    obtain ⟨ps, h1, h2⟩ := all_but_one hi hw sw hup (by simpa using hx) (negated_spins sx) he'
    rw [negated_negated] at h2
    exact ⟨_, List.range n, List.Perm.refl _, all_path hx, _, ps, h1, h2, rfl⟩

theorem two_sweeps_back {x : List ℤ} (hx : x.length = n) : Reaches E .random n 2 x x :=
  ⟨_, List.range n, List.Perm.refl _, all_path hx, _, List.range n, List.Perm.refl _, all_path (by simpa using hx),
    negated_negated x⟩

/-- Twice as many sweeps as spins lead from every state to every state. -/
theorem connected (hm : ∀ i < n, Matters E n i) {x y : List ℤ} (hx : x.length = n) (hy : y.length = n) (sx : IsSpins x)
    (sy : IsSpins y) : Reaches E .random n (2 * n) x y := by
  have key : ∀ (l : List Nat) (P : Nat → Bool) (x : List ℤ), (∀ i ∈ l, i < n) → x.length = n → IsSpins x →
      Reaches E .random n (2 * l.length) x ((l.filter P).foldl flipAt x) := by
    intro l P
    induction l with
    | nil => intro x _ _ _; exact rfl
    | cons i l ih =>
      intro x hl hx sx
      have hl' := fun j hj => hl j (List.mem_cons_of_mem _ hj)
      rw [List.length_cons, Nat.mul_succ, Nat.add_comm]
      by_cases hP : P i = true
      · rw [List.filter_cons_of_pos hP, List.foldl_cons]
        exact reaches_append (two_sweeps (hl i List.mem_cons_self) (hm i (hl i List.mem_cons_self)) hx sx)
          (ih _ hl' (by rw [flipAt_length, hx]) (flipAt_spins sx))
      · rw [List.filter_cons_of_neg hP]
        exact reaches_append (two_sweeps_back hx) (ih _ hl' hx sx)
  have := key (List.range n) (fun i => decide (x[i]? ≠ y[i]?)) x (fun i hi => List.mem_range.mp hi) hx sx
  rwa [flips_differ hx hy sx sy, List.length_range] at this

/-- **C99**: in random order, twice as many sweeps as variables or more may lead from any initial state to any state. -/
theorem C99_random (hp : p.FromCalls) (hs : prepare p = .ok s) {τ : Nat → ℚ} (hτ : o.Tempers τ) (hm : o.pickup = .random)
    (hn : 2 * (p.labels.length : Int) ≤ o.numSweeps)
    (hT : ∀ k < o.numSweeps.toNat, p.Tempered p.labels exp (τ k)) {init : Option Sample}
    (hi : InitOk p.varsSet init) {x y : List ℤ} (hx : Starts p.labels init x) (hy : y.length = p.labels.length) (hsp : IsSpins y) :
    ∃ rng : Rng Nat, rng.Ok ∧ ∃ g a g', annealing rng exp s o init g = .ok (a, g') ∧ a.sample = p.labels.zip y := by
  refine (C99_reachable hp hs hτ (by omega) hT hi hy).mpr ⟨x, hx, ?_⟩
  rw [hm, show o.numSweeps.toNat = (o.numSweeps.toNat - 2 * p.labels.length) + 2 * p.labels.length by omega]
  have h1 := reaches_negated (E := p.energyAt p.labels) (mode := .random) (by simp) (o.numSweeps.toNat - 2 * p.labels.length) hx.1
  obtain ⟨h2, h3⟩ := reaches_same h1 hx.2.1
  exact reaches_append h1 (connected (fun i hi => all_matter hp hs hi) (h2.trans hx.1) hy h3 hsp)

/-- The hypotheses hold for the Ising example with four sweeps. -/
example : Ex.physIsing.FromCalls ∧ (prepare Ex.physIsing).isOk = true ∧ Ex.physIsing.labels.length = 2 ∧
    let o := { Ex.options with numSweeps := 4 }
    o.Tempers (fun k => o.initialTemperature * o.coolingRate ^ k) ∧ o.pickup = .random ∧
      (∀ k < o.numSweeps.toNat, Ex.physIsing.Tempered Ex.physIsing.labels Ex.exp (o.initialTemperature * o.coolingRate ^ k)) ∧
      Starts Ex.physIsing.labels (some [("x[0]", 1), ("x[1]", 1)]) [1, 1] := by
  refine ⟨Ex.ising_calls, by decide +kernel, by decide +kernel, .inl ⟨rfl, fun _ => rfl⟩, rfl,
    fun k _ => Ex.tempered _ _ (by simp only [Ex.options]; positivity), by decide +kernel, by unfold IsSpins; decide, ?_⟩
  rintro _ ⟨⟩
  decide +kernel

/-! ## In sequential order -/

/-- Three spins that want to be alike: `x[0] * x[1] + x[0] * x[2] + x[1] * x[2]`. -/
def Ex.triOps : List Op := [.variables "x" [3],
  .add 10 (.tuple [some ⟨.spin, "x[0]"⟩, some ⟨.spin, "x[1]"⟩]) (.str "") (.num 1) (.num 1) .none .none,
  .add 11 (.tuple [some ⟨.spin, "x[0]"⟩, some ⟨.spin, "x[2]"⟩]) (.str "") (.num 1) (.num 1) .none .none,
  .add 12 (.tuple [some ⟨.spin, "x[1]"⟩, some ⟨.spin, "x[2]"⟩]) (.str "") (.num 1) (.num 1) .none .none]

def Ex.triModel : LModel := Ex.triOps.foldl (Op.step ⟨0, fun _ => ""⟩) (LModel.new .ising "404")

def Ex.physTri : Physical :=
  match (toPhysical ⟨0, fun _ => ""⟩ (fun _ _ => 0) (fun _ => "1") []).run Ex.triModel with
  | .ok p _ => p
  | .error _ _ => ⟨.ising, [], [], 0, [], [], []⟩

theorem Ex.tri_made : Ex.physTri.FromCalls :=
  ⟨_, fun _ _ => 0, fun _ => "1", [], Ex.triModel, _, made_ops _ (.new _ _) (by simp [Ex.triOps]) fun _ _ _ => trivial, by simp, rfl⟩

/-- In sequential order this is false, however many sweeps there are and whatever is drawn: the run goes back and forth between
two states, although a third one has a lower energy and no single flip keeps or lowers it. -/
theorem C99_sequential_refuted : ∃ (p : Physical) (s : Problem) (x y z : List ℤ), p.FromCalls ∧ prepare p = .ok s ∧
    x ∈ spinVectors p.labels.length ∧ y ∈ spinVectors p.labels.length ∧ z ∈ spinVectors p.labels.length ∧
    StrictOptimum (p.energyAt p.labels) p.labels.length z ∧ p.energyAt p.labels z < p.energyAt p.labels x ∧
    p.energyAt p.labels z < p.energyAt p.labels y ∧
    ∀ (γ : Type) (rng : Rng γ) (exp : ℚ → Except Err ℚ) (o : Options) (g g' : γ) (a : Annealed), rng.Ok → o.pickup = .sequential →
      annealing rng exp s o (some (p.labels.zip x)) g = .ok (a, g') →
      a.sample = if o.numSweeps.toNat % 2 = 0 then p.labels.zip x else p.labels.zip y := by
  have hl : Ex.physTri.labels = ["x[0]", "x[1]", "x[2]"] := by decide +kernel
  obtain ⟨s, hs⟩ : ∃ s, prepare Ex.physTri = .ok s := by
    have : (prepare Ex.physTri).isOk = true := by decide +kernel
    cases h : prepare Ex.physTri with
    | ok s => exact ⟨s, rfl⟩
    | error e => rw [h] at this; cases this
  have hmem : ∀ x : List ℤ, x.length = 3 → IsSpins x → x ∈ spinVectors Ex.physTri.labels.length := by
    intro x h1 h2
    rw [hl]
    exact mem_spinVectors.mpr ⟨h1, h2⟩
  refine ⟨Ex.physTri, s, [1, -1, 1], [-1, 1, -1], [1, 1, 1], Ex.tri_made, hs, hmem _ rfl (by unfold IsSpins; decide),
    hmem _ rfl (by unfold IsSpins; decide), hmem _ rfl (by unfold IsSpins; decide), ?_, by decide +kernel, by decide +kernel, ?_⟩
  · unfold StrictOptimum; decide +kernel
  intro γ rng exp o g g' a hr hm h
  have hi : Sample.SpinsOn (Ex.physTri.labels.zip [1, -1, 1]) Ex.physTri.varsSet := by
    unfold Sample.SpinsOn; decide +kernel
  obtain ⟨x, y, hx, hy, _, e, hreach⟩ := C99_follows (init := some _) Ex.tri_made hs hr hi h
  have hx' : x = [1, -1, 1] := by
    rw [hx.2.2 _ rfl, hl]; decide +kernel
  have step : ∀ ps u v, Pickup.Order .sequential Ex.physTri.labels.length ps →
      SweepPath (Ex.physTri.energyAt Ex.physTri.labels) ps u v →
      (u = [1, -1, 1] → v = [-1, 1, -1]) ∧ (u = [-1, 1, -1] → v = [1, -1, 1]) := by
    intro ps u v h1 h2
    have hps : ps = [0, 1, 2] := by
      rw [show ps = _ from h1, hl]; rfl
    have hm := mem_pathEnds h2
    rw [hps] at hm
    refine ⟨fun hu => ?_, fun hu => ?_⟩
    · rw [hu, show pathEnds (Ex.physTri.energyAt Ex.physTri.labels) [0, 1, 2] [1, -1, 1] = [[-1, 1, -1]] by decide +kernel] at hm
      exact List.mem_singleton.mp hm
    · rw [hu, show pathEnds (Ex.physTri.energyAt Ex.physTri.labels) [0, 1, 2] [-1, 1, -1] = [[1, -1, 1]] by decide +kernel] at hm
      exact List.mem_singleton.mp hm
  have walk : ∀ k u v, Reaches (Ex.physTri.energyAt Ex.physTri.labels) .sequential Ex.physTri.labels.length k u v →
      (u = [1, -1, 1] → v = if k % 2 = 0 then [1, -1, 1] else [-1, 1, -1]) ∧
      (u = [-1, 1, -1] → v = if k % 2 = 0 then [-1, 1, -1] else [1, -1, 1]) := by
    intro k
    induction k with
    | zero => rintro u v ⟨⟩; exact ⟨fun h => h, fun h => h⟩
    | succ k ih =>
      rintro u v ⟨w, ps, h1, h2, h3⟩
      obtain ⟨s1, s2⟩ := step ps u w h1 h2
      obtain ⟨i1, i2⟩ := ih w v h3
      rcases Nat.mod_two_eq_zero_or_one k with hk | hk
      · rw [show (k + 1) % 2 = 1 by omega]
        rw [hk] at i1 i2
        exact ⟨fun hu => i2 (s1 hu), fun hu => i1 (s2 hu)⟩
      · rw [show (k + 1) % 2 = 0 by omega]
        rw [hk] at i1 i2
        exact ⟨fun hu => i2 (s1 hu), fun hu => i1 (s2 hu)⟩
  rw [hm] at hreach
  rw [e, (walk _ _ _ hreach).1 hx']
  split <;> rfl

end Sawatabi.Props
