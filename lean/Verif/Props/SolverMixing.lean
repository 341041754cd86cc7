import Verif.Props.SolverBoltzmann
import Verif.Props.SolverConnected
import Verif.Lemmas.Mixing

/-!
# Long runs in random order forget the initial state (C123)

At a fixed temperature. The orders of the variables and the random numbers are drawn, each way being equally likely.
-/

namespace Sawatabi.Props

variable {p : Physical} {s : Problem} {exp : ℚ → Except Err ℚ} {o : Options} {N : Nat} {c : ℚ} {η : ℝ}

/-- At this temperature, a flip that raises the energy is accepted with a chance of `c` or more and rejected with a chance of `c`
or more, whatever the state: the number it is accepted below is not too near to 0 or 1. `1 / N` is the grid of the random
numbers. -/
def _root_.Sawatabi.Physical.Leeway (p : Physical) (exp : ℚ → Except Err ℚ) (T : ℚ) (N : Nat) (c : ℚ) : Prop :=
  ∀ x ∈ spinVectors p.labels.length, ∀ i < p.labels.length, p.energyAt p.labels x < p.energyAt p.labels (flipAt x i) →
    ∃ q, exp (-(p.energyAt p.labels (flipAt x i) - p.energyAt p.labels x) / T) = .ok q ∧ c ≤ q ∧ q ≤ 1 - c - 1 / N

/-- The chance that a run from `x` returns `y`. -/
def sampleChance (p : Physical) (s : Problem) (exp : ℚ → Except Err ℚ) (o : Options) (N : Nat) (x y : List ℤ) : ℚ :=
  runChance N p.labels.length o.numSweeps.toNat fun pss d =>
    returns (p.labels.zip y) (annealing (Rng.ordering.drawing d) exp s o (some (p.labels.zip x)) pss)

/-- How much is forgotten in twice as many sweeps as there are variables. -/
noncomputable def forgetting (n : Nat) (c : ℚ) : ℝ := 2 ^ n * ((c : ℝ) ^ n / n.factorial) ^ (2 * n)

theorem ordering_ok : Rng.ordering.Ok := by
  refine ⟨fun n g => by simp [Rng.ordering], fun n g => by simp [Rng.ordering], fun n g r hr => ?_, fun n g => ?_⟩
  · rw [List.eq_of_mem_replicate hr]
    norm_num
  · unfold Rng.ordering
    cases g with
    | nil => exact List.Perm.refl _
    | cons ps g =>
      simp only
      split
      · assumption
      · exact List.Perm.refl _

theorem ordering_orders {n : Nat} (k : Nat) {pss : List (List Nat)} (h1 : pss.length = k)
    (h2 : ∀ ps ∈ pss, ps.Perm (List.range n)) : orders Rng.ordering .random n k pss = pss.flatten := by
  induction k generalizing pss with
  | zero => rw [List.length_eq_zero_iff.mp h1]; rfl
  | succ k ih =>
    cases pss with
    | nil => simp at h1
    | cons ps pss =>
      have h := ih (pss := pss) (by simpa using h1) fun qs hq => h2 qs (List.mem_cons_of_mem _ hq)
      simp only [orders, Rng.ordering, List.tail_cons, if_pos (h2 ps List.mem_cons_self), List.flatten_cons]
      exact congrArg _ h

/-- The chance of a sample is that of a chain of sweeps. -/
theorem sampleChance_eq (hp : p.FromCalls) (hs : prepare p = .ok s) (hN : 0 < N) (hT : 0 < o.initialTemperature)
    (hc : o.coolingRate = 1) (hm : o.pickup = .random) (hrev : o.reverse = .none) (hn : 0 ≤ o.numSweeps)
    (hexp : ∀ a ≤ 0, ∃ v, exp a = .ok v) {x y : List ℤ} (hx : x ∈ spinVectors p.labels.length)
    (hy : y ∈ spinVectors p.labels.length) :
    ((sampleChance p s exp o N x y : ℚ) : ℝ) =
      sweepsChance (flipChance exp (p.energyAt p.labels) o.initialTemperature N) p.labels.length o.numSweeps.toNat x y := by
  rw [sweepsChance_eq _ hx]
  unfold sampleChance runChance
  rw [Rat.cast_div, Rat.cast_natCast]
  congr 1
  have h : ∀ pss ∈ orderings p.labels.length o.numSweeps.toNat,
      ((chance N (o.numSweeps.toNat * p.labels.length) fun d => returns (p.labels.zip y)
        (annealing (Rng.ordering.drawing d) exp s o (some (p.labels.zip x)) pss) : ℚ) : ℝ) =
      walk (flipChance exp (p.energyAt p.labels) o.initialTemperature N) pss.flatten x y := by
    intro pss hpss
    obtain ⟨h1, h2⟩ := mem_orderings hpss
    obtain ⟨e, he⟩ := returns_iff (exp := exp) (rng := Rng.ordering) hp hs hc (by rw [hm]; simp) hrev hn hx hy pss
    obtain ⟨hl, hlt⟩ := orders_lt ordering_ok o.pickup p.labels.length o.numSweeps.toNat pss
    simp only [he]
    rw [C111_chain hp hs hN hT hexp hlt hx y hl.le [] [] e 0, hm, ordering_orders _ h1 h2]
  generalize orderings p.labels.length o.numSweeps.toNat = l at h ⊢
  induction l with
  | nil => simp
  | cons pss l ih =>
    rw [List.map_cons, List.sum_cons, List.map_cons, List.sum_cons, Rat.cast_add, h pss List.mem_cons_self,
      ih fun qss hq => h qss (List.mem_cons_of_mem _ hq)]

theorem flip_chances (E : List ℤ → ℚ) (T : ℚ) (hN : 0 < N) (n : Nat) : Chances (flipChance exp E T N) n :=
  fun i _ x _ => flipChance_unit hN i x

theorem flip_open {T : ℚ} (hN : 0 < N) (hc0 : 0 < c) (hc1 : c ≤ 1) (hl : p.Leeway exp T N c) :
    Open (flipChance exp (p.energyAt p.labels) T N) (p.energyAt p.labels) p.labels.length c := by
  intro i hi x hx
  by_cases hup : p.energyAt p.labels x < p.energyAt p.labels (flipAt x i)
  · obtain ⟨q, hq, h1, h2⟩ := hl x hx i hi hup
    have hN' : (0 : ℚ) < N := by exact_mod_cast hN
    have hq1 : q ≤ 1 := by
      have : 0 < 1 / (N : ℚ) := by positivity
      linarith
    have hq0 : 0 ≤ q := hc0.le.trans h1
    have e : flipChance exp (p.energyAt p.labels) T N i x = (((min N ⌈(N : ℚ) * q⌉₊ : ℕ) : ℚ) / N : ℚ) := by
      unfold flipChance
      rw [if_neg (not_le.mpr hup), hq]
      push_cast
      rfl
    rw [e]
    constructor
    · have : c ≤ ((min N ⌈(N : ℚ) * q⌉₊ : ℕ) : ℚ) / N := by
        rw [le_div_iff₀ hN', mul_comm]
        push_cast
        refine le_min ?_ ?_
        · nlinarith
        · exact (mul_le_mul_of_nonneg_left h1 hN'.le).trans (Nat.le_ceil _)
      exact_mod_cast this
    · intro _
      have : ((min N ⌈(N : ℚ) * q⌉₊ : ℕ) : ℚ) / N ≤ 1 - c := by
        rw [div_le_iff₀ hN']
        have h3 : ((min N ⌈(N : ℚ) * q⌉₊ : ℕ) : ℚ) ≤ (⌈(N : ℚ) * q⌉₊ : ℚ) := by exact_mod_cast min_le_right _ _
        have h4 := Nat.ceil_lt_add_one (mul_nonneg hN'.le hq0)
        have h5 : (N : ℚ) * q ≤ N * (1 - c - 1 / N) := mul_le_mul_of_nonneg_left h2 hN'.le
        have h6 : (N : ℚ) * (1 - c - 1 / N) = N * (1 - c) - 1 := by field_simp
        linarith
      exact_mod_cast this
  · refine ⟨?_, fun h => absurd h hup⟩
    unfold flipChance
    rw [if_pos (not_lt.mp hup)]
    exact_mod_cast hc1

theorem forgetting_bounds (hp : p.FromCalls) (hs : prepare p = .ok s) {T : ℚ} (hN : 0 < N) (hc0 : 0 < c) (hc1 : c ≤ 1)
    (hl : p.Leeway exp T N c) :
    (∀ x ∈ spinVectors p.labels.length, ∀ y ∈ spinVectors p.labels.length,
      ((c : ℝ) ^ p.labels.length / p.labels.length.factorial) ^ (2 * p.labels.length) ≤
        sweepsChance (flipChance exp (p.energyAt p.labels) T N) p.labels.length (2 * p.labels.length) x y) ∧
    ((spinVectors p.labels.length).card : ℝ) * ((c : ℝ) ^ p.labels.length / p.labels.length.factorial) ^ (2 * p.labels.length) =
      forgetting p.labels.length c ∧
    0 < forgetting p.labels.length c ∧ forgetting p.labels.length c ≤ 1 := by
  have hc0' : (0 : ℝ) < c := by exact_mod_cast hc0
  have h1 : ∀ x ∈ spinVectors p.labels.length, ∀ y ∈ spinVectors p.labels.length,
      ((c : ℝ) ^ p.labels.length / p.labels.length.factorial) ^ (2 * p.labels.length) ≤
        sweepsChance (flipChance exp (p.energyAt p.labels) T N) p.labels.length (2 * p.labels.length) x y := by
    intro x hx y hy
    obtain ⟨hx1, hx2⟩ := mem_spinVectors.mp hx
    obtain ⟨hy1, hy2⟩ := mem_spinVectors.mp hy
    exact sweepsChance_lower (flip_chances _ _ hN _) hc0'.le (flip_open hN hc0 hc1 hl) hx
      (connected (fun i hi => all_matter hp hs hi) hx1 hy1 hx2 hy2)
  have h2 : ((spinVectors p.labels.length).card : ℝ) *
      ((c : ℝ) ^ p.labels.length / p.labels.length.factorial) ^ (2 * p.labels.length) = forgetting p.labels.length c := by
    rw [spinVectors_card, forgetting]
    push_cast
    rfl
  refine ⟨h1, h2, by unfold forgetting; positivity, ?_⟩
  have hx : List.replicate p.labels.length (1 : ℤ) ∈ spinVectors p.labels.length :=
    mem_spinVectors.mpr ⟨by simp, fun a ha => .inl (List.eq_of_mem_replicate ha)⟩
  rw [← h2, ← sweepsChance_sum (acc := flipChance exp (p.energyAt p.labels) T N) (2 * p.labels.length) hx, ← nsmul_eq_mul,
    ← Finset.sum_const]
  exact Finset.sum_le_sum fun y hy => h1 _ hx y hy

/-- **C123**: at a fixed temperature, in random order, the chances of the samples depend the less on the initial state the more
sweeps there are: with every `2 * n` sweeps over `n` variables the difference shrinks by the share `forgetting n c`. -/
theorem C123_forgets (hp : p.FromCalls) (hs : prepare p = .ok s) (hN : 0 < N) (hT : 0 < o.initialTemperature)
    (hc : o.coolingRate = 1) (hm : o.pickup = .random) (hrev : o.reverse = .none) (hn : 0 ≤ o.numSweeps)
    (hexp : ∀ a ≤ 0, ∃ v, exp a = .ok v) (hc0 : 0 < c) (hc1 : c ≤ 1) (hl : p.Leeway exp o.initialTemperature N c)
    {x x' : List ℤ} (hx : x ∈ spinVectors p.labels.length) (hx' : x' ∈ spinVectors p.labels.length) :
    0 < forgetting p.labels.length c ∧ forgetting p.labels.length c ≤ 1 ∧
    ∑ y ∈ spinVectors p.labels.length, |((sampleChance p s exp o N x y : ℚ) : ℝ) - (sampleChance p s exp o N x' y : ℚ)| ≤
      2 * (1 - forgetting p.labels.length c) ^ (o.numSweeps.toNat / (2 * p.labels.length)) := by
  obtain ⟨b1, b2, b3, b4⟩ := forgetting_bounds (T := o.initialTemperature) hp hs hN hc0 hc1 hl
  refine ⟨b3, b4, ?_⟩
  have hch := flip_chances (exp := exp) (p.energyAt p.labels) o.initialTemperature hN p.labels.length
  rw [Finset.sum_congr rfl fun y hy => by
    rw [sampleChance_eq hp hs hN hT hc hm hrev hn hexp hx hy, sampleChance_eq hp hs hN hT hc hm hrev hn hexp hx' hy]]
  generalize flipChance exp (p.energyAt p.labels) o.initialTemperature N = acc at *
  generalize o.numSweeps.toNat = k
  generalize hL : 2 * p.labels.length = L at *
  have e : ∀ y, sweepsChance acc p.labels.length k x y - sweepsChance acc p.labels.length k x' y =
      ∑ z ∈ spinVectors p.labels.length, (sweepsChance acc p.labels.length (k % L) x z - sweepsChance acc p.labels.length (k % L) x' z) *
        sweepsChance acc p.labels.length (L * (k / L)) z y := by
    intro y
    conv_lhs => rw [← Nat.mod_add_div k L]
    rw [sweepsChance_add _ _ hx, sweepsChance_add _ _ hx', ← Finset.sum_sub_distrib]
    exact Finset.sum_congr rfl fun z _ => by ring
  simp only [e]
  refine (sweeps_contract hch b1 (by rw [b2]; linarith) (k / L) ?_).trans ?_
  · rw [Finset.sum_sub_distrib, sweepsChance_sum _ hx, sweepsChance_sum _ hx', sub_self]
  · rw [b2, mul_comm]
    refine mul_le_mul_of_nonneg_right ?_ (pow_nonneg (by linarith) _)
    have : ∀ z ∈ spinVectors p.labels.length,
        |sweepsChance acc p.labels.length (k % L) x z - sweepsChance acc p.labels.length (k % L) x' z| ≤
          sweepsChance acc p.labels.length (k % L) x z + sweepsChance acc p.labels.length (k % L) x' z := by
      intro z _
      have h1 := sweepsChance_nonneg hch (k % L) hx z
      have h2 := sweepsChance_nonneg hch (k % L) hx' z
      rw [abs_le]
      constructor <;> linarith
    refine (Finset.sum_le_sum this).trans (le_of_eq ?_)
    rw [Finset.sum_add_distrib, sweepsChance_sum _ hx, sweepsChance_sum _ hx']
    norm_num

/-- **C123**: what they get near to is the Boltzmann distribution, up to the errors of the grid of the random numbers and of
`exp`. -/
theorem C123_boltzmann (hp : p.FromCalls) (hs : prepare p = .ok s) (hN : 0 < N) (hT : 0 < o.initialTemperature)
    (hc : o.coolingRate = 1) (hm : o.pickup = .random) (hrev : o.reverse = .none) (hn : 0 ≤ o.numSweeps)
    (hexp : NearExp exp η) (hc0 : 0 < c) (hc1 : c ≤ 1) (hl : p.Leeway exp o.initialTemperature N c)
    {x : List ℤ} (hx : x ∈ spinVectors p.labels.length) :
    ∑ y ∈ spinVectors p.labels.length, |((sampleChance p s exp o N x y : ℚ) : ℝ) -
        boltzmann (p.energyAt p.labels) o.initialTemperature y /
          ∑ z ∈ spinVectors p.labels.length, boltzmann (p.energyAt p.labels) o.initialTemperature z| ≤
      2 * (1 - forgetting p.labels.length c) ^ (o.numSweeps.toNat / (2 * p.labels.length)) +
        2 * p.labels.length * (p.labels.length * (2 * (1 / N + η))) / forgetting p.labels.length c := by
  have hexp' : ∀ a ≤ 0, ∃ v, exp a = .ok v := fun a ha => let ⟨v, hv, _⟩ := hexp a ha; ⟨v, hv⟩
  obtain ⟨b1, b2, b3, b4⟩ := forgetting_bounds (T := o.initialTemperature) hp hs hN hc0 hc1 hl
  have hch := flip_chances (exp := exp) (p.energyAt p.labels) o.initialTemperature hN p.labels.length
  have hZ : 0 < ∑ z ∈ spinVectors p.labels.length, boltzmann (p.energyAt p.labels) o.initialTemperature z :=
    Finset.sum_pos (fun z _ => Real.exp_pos _) ⟨x, hx⟩
  rw [Finset.sum_congr rfl fun y hy => by rw [sampleChance_eq hp hs hN hT hc hm hrev hn hexp' hx hy]]
  have hone : ∀ ps, ps.Perm (List.range p.labels.length) → ∑ y ∈ spinVectors p.labels.length,
      |∑ x ∈ spinVectors p.labels.length, boltzmann (p.energyAt p.labels) o.initialTemperature x *
        walk (flipChance exp (p.energyAt p.labels) o.initialTemperature N) ps x y -
          boltzmann (p.energyAt p.labels) o.initialTemperature y| ≤ p.labels.length * (2 * (1 / N + η)) *
        ∑ x ∈ spinVectors p.labels.length, boltzmann (p.energyAt p.labels) o.initialTemperature x := by
    intro ps hps
    have h := walk_keeps (ps := ps) (n := p.labels.length) (μ := boltzmann (p.energyAt p.labels) o.initialTemperature)
      (acc := flipChance exp (p.energyAt p.labels) o.initialTemperature N) (fun i _ x _ => flipChance_unit hN i x)
      fun i _ x _ => flip_balance _ hN hT hexp i x
    rwa [hps.length_eq, List.length_range] at h
  generalize flipChance exp (p.energyAt p.labels) o.initialTemperature N = acc at *
  generalize hμ : boltzmann (p.energyAt p.labels) o.initialTemperature = μ at *
  have hpos : ∀ x, 0 < μ x := fun x => by rw [← hμ]; exact Real.exp_pos _
  generalize hZe : ∑ z ∈ spinVectors p.labels.length, μ z = Z at *
  have hscale : ∀ K : List ℤ → List ℤ → ℝ, ∑ y ∈ spinVectors p.labels.length,
      |∑ x ∈ spinVectors p.labels.length, μ x / Z * K x y - μ y / Z| =
      (∑ y ∈ spinVectors p.labels.length, |∑ x ∈ spinVectors p.labels.length, μ x * K x y - μ y|) / Z := by
    intro K
    rw [Finset.sum_div]
    refine Finset.sum_congr rfl fun y _ => ?_
    rw [← abs_of_pos hZ, ← abs_div, abs_of_pos hZ, sub_div, Finset.sum_div]
    congr 2
    exact Finset.sum_congr rfl fun x _ => by ring
  have hkeep : ∑ y ∈ spinVectors p.labels.length, |∑ x ∈ spinVectors p.labels.length,
      μ x / Z * sweepsChance acc p.labels.length (2 * p.labels.length) x y - μ y / Z| ≤
        2 * p.labels.length * (p.labels.length * (2 * (1 / N + η))) := by
    have h1 := sweeps_keep hch (μ := fun x => μ x / Z) (b := p.labels.length * (2 * (1 / N + η))) (by
      rw [hscale, div_le_iff₀ hZ]
      exact sweep_keep hone) (2 * p.labels.length)
    push_cast at h1
    exact h1
  generalize o.numSweeps.toNat = k
  have hlim := sweeps_limit (L := 2 * p.labels.length) (μ := fun x => μ x / Z)
    (ν := fun z => sweepsChance acc p.labels.length (k % (2 * p.labels.length)) x z) hch b1 (by rw [b2]; exact b3)
    (by rw [b2]; exact b4) (fun y _ => (div_pos (hpos y) hZ).le) (fun y _ => sweepsChance_nonneg hch _ hx y)
    (by rw [← Finset.sum_div, hZe, div_self hZ.ne']) (sweepsChance_sum _ hx) hkeep (k / (2 * p.labels.length))
  rw [b2] at hlim
  refine le_trans (le_of_eq ?_) hlim
  refine Finset.sum_congr rfl fun y _ => ?_
  rw [← sweepsChance_add _ _ hx, Nat.mod_add_div]

/-- The triangle of `C99_sequential_refuted` has, besides the two states a run in sequential order goes back and forth between,
others that it never leaves either. So in sequential order runs do not forget: however many sweeps there are, whatever is drawn
and at every temperature, no sample can be returned both from `x` and from `z`. -/
theorem C123_sequential_refuted : ∃ (p : Physical) (s : Problem) (x z : List ℤ), p.FromCalls ∧ prepare p = .ok s ∧
    x ∈ spinVectors p.labels.length ∧ z ∈ spinVectors p.labels.length ∧
    ∀ (γ γ' : Type) (rng : Rng γ) (rng' : Rng γ') (exp exp' : ℚ → Except Err ℚ) (o o' : Options) (g h : γ) (g' h' : γ')
      (a a' : Annealed), rng.Ok → rng'.Ok → o.pickup = .sequential → o'.pickup = .sequential →
      annealing rng exp s o (some (p.labels.zip x)) g = .ok (a, h) →
      annealing rng' exp' s o' (some (p.labels.zip z)) g' = .ok (a', h') → a.sample ≠ a'.sample := by
  have hl : Ex.physTri.labels = ["x[0]", "x[1]", "x[2]"] := by decide +kernel
  obtain ⟨s, hs⟩ : ∃ s, prepare Ex.physTri = .ok s := by
    have : (prepare Ex.physTri).isOk = true := by decide +kernel
    cases h : prepare Ex.physTri with
    | ok s => exact ⟨s, rfl⟩
    | error e => rw [h] at this; cases this
  refine ⟨Ex.physTri, s, [1, -1, 1], [1, 1, 1], Ex.tri_made, hs, ?_, ?_, ?_⟩
  · rw [hl]; exact mem_spinVectors.mpr ⟨rfl, by unfold IsSpins; decide⟩
  · rw [hl]; exact mem_spinVectors.mpr ⟨rfl, by unfold IsSpins; decide⟩
  intro γ γ' rng rng' exp exp' o o' g h g' h' a a' hr hr' hm hm' hrun hrun'
  have hi : Sample.SpinsOn (Ex.physTri.labels.zip [1, -1, 1]) Ex.physTri.varsSet := by
    unfold Sample.SpinsOn; decide +kernel
  have hi' : Sample.SpinsOn (Ex.physTri.labels.zip [1, 1, 1]) Ex.physTri.varsSet := by
    unfold Sample.SpinsOn; decide +kernel
  obtain ⟨x, y, hx, hy, _, e, hreach⟩ := C99_follows (init := some _) Ex.tri_made hs hr hi hrun
  obtain ⟨x', y', hx', hy', _, e', hreach'⟩ := C99_follows (init := some _) Ex.tri_made hs hr' hi' hrun'
  have ex : x = [1, -1, 1] := by
    rw [hx.2.2 _ rfl, hl]; decide +kernel
  have ex' : x' = [1, 1, 1] := by
    rw [hx'.2.2 _ rfl, hl]; decide +kernel
  have step : ∀ A : List (List ℤ), (A.all fun u =>
        (pathEnds (Ex.physTri.energyAt Ex.physTri.labels) [0, 1, 2] u).all fun v => A.contains v) = true →
      ∀ k u v, Reaches (Ex.physTri.energyAt Ex.physTri.labels) .sequential Ex.physTri.labels.length k u v → u ∈ A → v ∈ A := by
    intro A hA k
    induction k with
    | zero => rintro u v ⟨⟩ h; exact h
    | succ k ih =>
      rintro u v ⟨w, ps, h1, h2, h3⟩ hu
      have hps : ps = [0, 1, 2] := by
        rw [show ps = _ from h1, hl]; rfl
      have hm := mem_pathEnds h2
      rw [hps] at hm
      have h4 := List.all_eq_true.mp (List.all_eq_true.mp hA u hu) w hm
      exact ih w v h3 (by simpa using h4)
  rw [hm] at hreach
  rw [hm'] at hreach'
  have h1 := step [[1, -1, 1], [-1, 1, -1]] (by decide +kernel) _ _ _ hreach (by rw [ex]; simp)
  have h2 := step [[1, 1, 1], [1, 1, -1], [1, -1, -1], [-1, 1, 1], [-1, -1, 1], [-1, -1, -1]] (by decide +kernel) _ _ _ hreach'
    (by rw [ex']; simp)
  rw [e, e', Ne, zip_inj hy hy']
  rintro rfl
  revert h2
  simp only [List.mem_cons, List.not_mem_nil, or_false] at h1
  rcases h1 with rfl | rfl <;> decide

/-- The hypotheses hold for the Ising example at temperature 8, with an `exp` that is within 1 of the exponential function (as is
any function into the numbers from 0 to 1). -/
example : Ex.physIsing.FromCalls ∧ (prepare Ex.physIsing).isOk = true ∧
    let o := { Ex.options with coolingRate := 1, initialTemperature := 8, numSweeps := 1000 }
    o.coolingRate = 1 ∧ o.pickup = .random ∧ o.reverse = .none ∧ 0 < o.initialTemperature ∧
      Ex.physIsing.Leeway Ex.exp o.initialTemperature (2 ^ 53) (1 / 100) ∧ NearExp Ex.exp 1 ∧
      [1, -1] ∈ spinVectors Ex.physIsing.labels.length ∧ Ex.physIsing.labels.length = 2 := by
  have hl : Ex.physIsing.labels.length = 2 := by decide +kernel
  refine ⟨Ex.ising_calls, by decide +kernel, rfl, rfl, rfl, by norm_num, ?_, ?_, by decide +kernel, hl⟩
  · intro x hx i hi hup
    refine ⟨_, rfl, ?_⟩
    rw [hl] at hx hi
    revert i x
    decide +kernel
  · intro a ha
    have h1 : (0 : ℚ) < 1 / (1 - a) := one_div_pos.mpr (by linarith)
    have h2 : 1 / (1 - a) ≤ 1 := by
      rw [div_le_one (by linarith)]
      linarith
    refine ⟨1 / (1 - a), by simp [Ex.exp, ha], h1.le, ?_⟩
    have h3 := Real.exp_pos (a : ℝ)
    have h4 : Real.exp (a : ℝ) ≤ 1 := Real.exp_le_one_iff.mpr (by exact_mod_cast ha)
    have h5 : (0 : ℝ) < ((1 / (1 - a) : ℚ) : ℝ) := by exact_mod_cast h1
    have h6 : ((1 / (1 - a) : ℚ) : ℝ) ≤ 1 := by exact_mod_cast h2
    rw [abs_le]
    constructor <;> linarith

end Sawatabi.Props
