import Verif.Model.NppStream
import Verif.Spec.NppStream
import Verif.Props.Interactions
import Verif.Props.DeleteFix
import Verif.Props.Variables
import Verif.Props.PhysicalFrame
import Verif.Props.PhysicalEnergy
import Mathlib.Data.List.Induction

/-!
# Lemmas: the number partitioning application
-/

namespace Sawatabi.NppStream

open Stream Props

theorem Increasing.ordered {E : List (El ℚ)} (h : Increasing E) : Ordered E :=
  h.imp fun {a b} hab => ⟨hab.1.le, hab.2⟩

/-! ## Energies -/

/-- The sum over the pairs, in closed form, for values that need not be spins. -/
def pairs (σ : Assign) (els : List (El ℚ)) : ℚ :=
  (signedSum σ els ^ 2 - (els.map fun e => (e.data * σ (lab e)) ^ 2).sum) / 2

theorem signedSum_append (σ : Assign) (a b : List (El ℚ)) : signedSum σ (a ++ b) = signedSum σ a + signedSum σ b := by
  simp [signedSum]

theorem pairs_snoc (σ : Assign) (l : List (El ℚ)) (e : El ℚ) :
    pairs σ (l ++ [e]) = pairs σ l + e.data * σ (lab e) * signedSum σ l := by
  simp only [pairs, signedSum_append, List.map_append, List.sum_append]
  simp only [signedSum, List.map_cons, List.map_nil, List.sum_cons, List.sum_nil]
  ring

/-- What the pairs of `i` and the elements before it contribute. -/
def pairsOf (σ : Assign) (els : List (El ℚ)) (i : El ℚ) : ℚ :=
  ((els.filter fun j => decide (j.ts < i.ts)).map fun j => i.data * j.data * (σ (lab i) * σ (lab j))).sum

theorem pairsOf_eq (σ : Assign) (els : List (El ℚ)) (i : El ℚ) :
    pairsOf σ els i = i.data * σ (lab i) * signedSum σ (els.filter fun j => decide (j.ts < i.ts)) := by
  unfold pairsOf signedSum
  generalize els.filter (fun j => decide (j.ts < i.ts)) = l
  induction l with
  | nil => simp
  | cons j l ih => simp only [List.map_cons, List.sum_cons, ih]; ring

theorem pairs_append (σ : Assign) (a b : List (El ℚ)) (h : Increasing (a ++ b)) :
    pairs σ (a ++ b) = pairs σ a + (b.map (pairsOf σ (a ++ b))).sum := by
  induction b using List.reverseRecOn with
  | nil => simp
  | append_singleton b e ih =>
    rw [← List.append_assoc] at h ⊢
    have h' := List.pairwise_append.mp h
    rw [pairs_snoc, ih h'.1]
    have h1 : (b.map (pairsOf σ (a ++ b ++ [e]))) = b.map (pairsOf σ (a ++ b)) := by
      apply List.map_congr_left
      intro i hi
      have hlt := (h'.2.2 i (by simp [hi]) e (by simp)).1
      rw [pairsOf_eq, pairsOf_eq, List.filter_append]
      simp [not_lt.mpr hlt.le]
    have h2 : pairsOf σ (a ++ b ++ [e]) e = e.data * σ (lab e) * signedSum σ (a ++ b) := by
      rw [pairsOf_eq, List.filter_append]
      congr 2
      rw [List.filter_eq_self.mpr (fun j hj => by simpa using (h'.2.2 j hj e (by simp)).1)]
      simp
    rw [List.map_append, List.sum_append, h1]
    simp only [List.map_cons, List.map_nil, List.sum_cons, List.sum_nil, h2]
    ring

theorem lab_inj {a b : El ℚ} (h : lab a = lab b) : a.idx = b.idx := by
  unfold lab at h
  rw [arrayLabel_eq, arrayLabel_eq] at h
  have := idxSuffix_inj (string_append_left_inj h)
  simpa using this

theorem pairs_congr {σ τ : Assign} {l : List (El ℚ)} (h : ∀ e ∈ l, σ (lab e) = τ (lab e)) : pairs σ l = pairs τ l := by
  have h1 : signedSum σ l = signedSum τ l := by
    unfold signedSum
    rw [List.map_congr_left (fun e he => by rw [h e he])]
  unfold pairs
  rw [h1, List.map_congr_left (fun e he => by rw [h e he])]

theorem pairs_cons_zero {σ : Assign} {o : El ℚ} {l : List (El ℚ)} (h : σ (lab o) = 0) : pairs σ (o :: l) = pairs σ l := by
  simp [pairs, signedSum, h]

theorem pairsOf_congr {σ τ : Assign} {l : List (El ℚ)} {i : El ℚ} (hi : σ (lab i) = τ (lab i)) (h : ∀ e ∈ l, σ (lab e) = τ (lab e)) :
    pairsOf σ l i = pairsOf τ l i := by
  unfold pairsOf
  rw [hi, List.map_congr_left (fun e he => by rw [h e (List.mem_of_mem_filter he)])]

theorem pairs_spin {σ : Assign} (hσ : σ.IsSpin) (els : List (El ℚ)) :
    2 * pairs σ els = signedSum σ els ^ 2 - squares els := by
  have : (els.map fun e => (e.data * σ (lab e)) ^ 2) = els.map fun e => e.data ^ 2 := by
    apply List.map_congr_left
    intro e _
    rcases hσ (lab e) with h | h <;> rw [h] <;> ring
  unfold pairs squares
  rw [this]
  ring

/-! ## Names -/

/-- The array `x` with `k` variables. -/
def xs (k : Nat) : VArray := stdArray "x" [k] .spin

/-- The variable `x[i]`. -/
def xv (i : Nat) : PVar := ⟨.spin, arrayLabel "x" [i]⟩

theorem item_ok {k i : Nat} (h : i < k) : item (xs k) i = .ok (xv i) := by
  have := (stdArray_isArray "x" [k] .spin).order [i] (List.Forall₂.cons h .nil)
  simp only [rowMajor, List.prod_nil, mul_one, add_zero] at this
  unfold item
  rw [show (xs k).bits[i]? = _ from this]
  rfl

theorem xv_inj {i j : Nat} (h : (xv i).label = (xv j).label) : i = j := by
  simp only [xv, arrayLabel_eq] at h
  have := idxSuffix_inj (string_append_left_inj h)
  simpa using this

theorem xv_star (i : Nat) : '*' ∉ (xv i).label.toList := by
  have : '*' ∉ (Nat.repr i).toList := by
    intro h
    have := Nat.isDigit_of_mem_toDigits (b := 10) (by decide) (by decide) (c := '*') (n := i) (by simpa [Nat.repr] using h)
    revert this; decide
  simpa [xv, arrayLabel_eq, idxSuffix, Nat.repr] using this

/-- The name of the interaction of two variables. -/
def pname (i j : Nat) : String :=
  if (xv i).label < (xv j).label then (xv i).label ++ "*" ++ (xv j).label else (xv j).label ++ "*" ++ (xv i).label

theorem star_split {a b c d : String} (ha : '*' ∉ a.toList) (hc : '*' ∉ c.toList) (h : a ++ "*" ++ b = c ++ "*" ++ d) :
    a = c ∧ b = d := by
  have h' := congrArg String.toList h
  simp only [String.toList_append, List.append_assoc] at h'
  have := split_at (c := '*') ha hc (x := b.toList) (y := d.toList) (by simpa using h')
  exact ⟨String.toList_inj.mp this.1, String.toList_inj.mp this.2⟩

theorem pname_inj {i j i' j' : Nat} (h : pname i j = pname i' j') (hj : j < i) (hj' : j' < i') : i = i' ∧ j = j' := by
  unfold pname at h
  split at h <;> split at h <;>
  · obtain ⟨h1, h2⟩ := star_split (xv_star _) (xv_star _) h
    have := xv_inj h1
    have := xv_inj h2
    omega

theorem pname_names {i j : Nat} {r : Inter} (hd : (PyTarget.tuple [some (xv i), some (xv j)]).Denotes r) {n : String}
    (hn : PyName.Names (.str "") r n) : n = pname i j := by
  cases hd with
  | pair _ _ h =>
    cases hn with
    | given _ _ h0 => exact absurd rfl h0
    | quad _ _ => rw [pname, if_pos h]
  | swapped v w h =>
    cases hn with
    | given _ _ h0 => exact absurd rfl h0
    | quad _ _ => rw [pname, if_neg (not_lt_of_gt h)]

theorem pair_denotes {i j : Nat} (h : i ≠ j) : ∃ r, (PyTarget.tuple [some (xv i), some (xv j)]).Denotes r ∧
    PyName.Names (.str "") r (pname i j) := by
  have hne : (xv i).label ≠ (xv j).label := fun h' => h (xv_inj h')
  rcases lt_or_gt_of_ne hne with hlt | hlt
  · refine ⟨_, .pair _ _ hlt, ?_⟩
    rw [pname, if_pos hlt]
    exact .quad _ _
  · refine ⟨_, .swapped _ _ hlt, ?_⟩
    rw [pname, if_neg (not_lt_of_gt hlt)]
    exact .quad _ _

/-! ## The model during the mapping -/

/-- The model has the variables `x[0..k-1]`, interactions only between pairs in `P`, and the energy `F`. -/
structure Mid (k : Nat) (P : Nat → Nat → Prop) (F : Assign → ℚ) (m : LModel) : Prop where
  mtype : m.mtype = .ising
  constraints : m.constraints = []
  offset : m.offset = .num 0
  rect : m.Rect
  unique : m.names.Nodup
  ordered : AllOrdered m.rows
  numeric : ∀ r ∈ m.rows, (∃ q, r.coef = .num q) ∧ ∃ q, r.scale = .num q
  vars : m.vars = if k = 0 then [] else [("x", xs k)]
  names : ∀ n ∈ m.names, ∃ i j, j < i ∧ P i j ∧ n = pname i j
  energy : ∀ ρ σ, m.energy ρ σ = F σ

theorem Mid.congr {k : Nat} {P Q : Nat → Nat → Prop} {F G : Assign → ℚ} {m : LModel} (h : Mid k P F m) (hP : ∀ i j, P i j → Q i j)
    (hF : ∀ σ, F σ = G σ) : Mid k Q G m :=
  ⟨h.mtype, h.constraints, h.offset, h.rect, h.unique, h.ordered, h.numeric, h.vars,
    fun n hn => by obtain ⟨i, j, h1, h2, h3⟩ := h.names n hn; exact ⟨i, j, h1, hP _ _ h2, h3⟩,
    fun ρ σ => by rw [h.energy, hF]⟩

variable {k : Nat} {P : Nat → Nat → Prop} {F : Assign → ℚ} {m : LModel}

theorem Mid.add (h : Mid k P F m) (now : ℚ) (render : El ℚ → String) {i j : El ℚ} (hi : i.idx < k) (hj : j.idx < i.idx)
    (hP : ¬ P i.idx j.idx) (hts : j.ts < i.ts) :
    ∃ m', (mapPair now render (xs k) i j).run m = .ok ⟨⟩ m' ∧
      Mid k (fun a b => P a b ∨ (a = i.idx ∧ b = j.idx)) (fun σ => F σ + i.data * j.data * (σ (lab i) * σ (lab j))) m' := by
  unfold mapPair
  rw [if_pos hts, item_ok hi, item_ok (by omega)]
  simp only [Py.run_bind, Py.run_liftE]
  obtain ⟨r, hd, hn⟩ := pair_denotes (i := i.idx) (j := j.idx) (by omega)
  have hfresh : pname i.idx j.idx ∉ m.names := by
    intro hm
    obtain ⟨a, b, h1, h2, h3⟩ := h.names _ hm
    obtain ⟨rfl, rfl⟩ := pname_inj h3 hj h1
    exact hP h2
  obtain ⟨m', hr⟩ := (C02_add_succeeds_iff (now := now) h.rect (c := .num (-1 * i.data * j.data)) (s := .num 1)
    (attributes := .dict [("n", .str (render j)), ("attn_ts", .num j.ts)]) (ts := .none)).mpr
    ⟨⟨r, _, hd, hn, hfresh⟩, by simp, by simp, by simp, by simp⟩
  refine ⟨m', hr, ?_⟩
  obtain ⟨row, f1, f2, f3, f4, f5, f6, f7, _, f8, f9, f10, f11, _, _⟩ := C02_add_frame hr
  have hrect := add_rect now (.tuple [some (xv i.idx), some (xv j.idx)]) (.str "") (.num (-1 * i.data * j.data)) (.num 1)
    (.dict [("n", .str (render j)), ("attn_ts", .num j.ts)]) .none m h.rect
  rw [hr] at hrect
  have hnm : row.name = pname i.idx j.idx := pname_names f2 f3
  refine ⟨by rw [f8, h.mtype], by rw [f11, h.constraints], by rw [f10, h.offset], hrect, ?_, ?_, ?_, by rw [f9, h.vars], ?_, ?_⟩
  · unfold LModel.names
    rw [f1, List.map_append]
    have := h.unique
    unfold LModel.names at this f4
    simp only [List.map_cons, List.map_nil]
    rw [List.nodup_append]
    refine ⟨this, by simp, ?_⟩
    intro a ha b hb
    rw [List.mem_singleton] at hb
    subst hb
    rintro rfl
    exact f4 ha
  · intro r' hr'
    rw [f1] at hr'
    rcases List.mem_append.mp hr' with hr' | hr'
    · exact h.ordered r' hr'
    · rw [List.mem_singleton] at hr'
      subst hr'
      exact Denotes_ordered f2
  · intro r' hr'
    rw [f1] at hr'
    rcases List.mem_append.mp hr' with hr' | hr'
    · exact h.numeric r' hr'
    · rw [List.mem_singleton] at hr'
      subst hr'
      refine ⟨?_, ?_⟩
      · cases hc : r'.coef with
        | num q => exact ⟨q, rfl⟩
        | expr e => rw [hc] at f5; cases f5
      · cases hc : r'.scale with
        | num q => exact ⟨q, rfl⟩
        | expr e => rw [hc] at f6; cases f6
  · intro n hn'
    unfold LModel.names at hn'
    rw [f1, List.map_append, List.mem_append] at hn'
    rcases hn' with hn' | hn'
    · obtain ⟨a, b, h1, h2, h3⟩ := h.names n hn'
      exact ⟨a, b, h1, .inl h2, h3⟩
    · simp only [List.map_cons, List.map_nil, List.mem_singleton] at hn'
      exact ⟨i.idx, j.idx, hj, .inr ⟨rfl, rfl⟩, by rw [hn', hnm]⟩
  · intro ρ σ
    rw [C02_add_energy hr, h.energy]
    simp only [PyCoef.value, PyTarget.product, xv, lab]
    ring

theorem Mid.inner (h : Mid k P F m) (now : ℚ) (render : El ℚ → String) {i : El ℚ} (hi : i.idx < k) {l : List (El ℚ)}
    (hl : Ordered l) (hlt : ∀ j ∈ l, j.ts < i.ts → j.idx < i.idx) (hP : ∀ j ∈ l, ¬ P i.idx j.idx) :
    ∃ m', (l.forM fun j => mapPair now render (xs k) i j).run m = .ok ⟨⟩ m' ∧
      Mid k (fun a b => P a b ∨ (a = i.idx ∧ ∃ j ∈ l, b = j.idx)) (fun σ => F σ + pairsOf σ l i) m' := by
  induction l generalizing m P F with
  | nil => exact ⟨m, rfl, h.congr (fun _ _ hp => .inl hp) (fun σ => by simp [pairsOf])⟩
  | cons j l ih =>
    obtain ⟨hl1, hl2⟩ := List.pairwise_cons.mp hl
    rw [Py.run_forM_cons]
    by_cases hts : j.ts < i.ts
    · obtain ⟨m1, hr, hm1⟩ := h.add now render hi (hlt j (by simp) hts) (hP j (by simp)) hts
      rw [hr]
      obtain ⟨m2, hr2, hm2⟩ := ih hm1 hl2 (fun x hx => hlt x (by simp [hx])) (by
        intro x hx hc
        rcases hc with hc | ⟨_, hc⟩
        · exact hP x (by simp [hx]) hc
        · have := (hl1 x hx).2; omega)
      refine ⟨m2, hr2, hm2.congr ?_ ?_⟩
      · rintro a b ((hp | ⟨ha, hb⟩) | ⟨ha, x, hx, hb⟩)
        · exact .inl hp
        · exact .inr ⟨ha, j, by simp, hb⟩
        · exact .inr ⟨ha, x, by simp [hx], hb⟩
      · intro σ
        simp only [pairsOf, List.filter_cons, hts, decide_true, if_true, List.map_cons, List.sum_cons]
        ring
    · have hr : (mapPair now render (xs k) i j).run m = .ok ⟨⟩ m := by
        unfold mapPair
        rw [if_neg hts]
        rfl
      rw [hr]
      obtain ⟨m2, hr2, hm2⟩ := ih h hl2 (fun x hx => hlt x (by simp [hx])) (fun x hx => hP x (by simp [hx]))
      refine ⟨m2, hr2, hm2.congr ?_ ?_⟩
      · rintro a b (hp | ⟨ha, x, hx, hb⟩)
        · exact .inl hp
        · exact .inr ⟨ha, x, by simp [hx], hb⟩
      · intro σ
        simp [pairsOf, hts]

theorem increasing_idx {l : List (El ℚ)} (hl : Ordered l) {a b : El ℚ} (ha : a ∈ l) (hb : b ∈ l) (h : a.ts < b.ts) :
    a.idx < b.idx := by
  induction l with
  | nil => cases ha
  | cons c l ih =>
    obtain ⟨h1, h2⟩ := List.pairwise_cons.mp hl
    rcases List.mem_cons.mp ha with rfl | ha' <;> rcases List.mem_cons.mp hb with rfl | hb'
    · exact absurd h (lt_irrefl _)
    · exact (h1 b hb').2
    · exact absurd h (not_lt.mpr (h1 a ha').1)
    · exact ih h2 ha' hb'

theorem Mid.outer (h : Mid k P F m) (now : ℚ) (render : El ℚ → String) {els inc : List (El ℚ)} (hi : ∀ i ∈ inc, i.idx < k)
    (hsub : ∀ i ∈ inc, i ∈ els) (hl : Ordered els) (hinc : Ordered inc) (hP : ∀ i ∈ inc, ∀ j ∈ els, ¬ P i.idx j.idx) :
    ∃ m', (inc.forM fun i => els.forM fun j => mapPair now render (xs k) i j).run m = .ok ⟨⟩ m' ∧
      Mid k (fun a b => P a b ∨ ∃ i ∈ inc, a = i.idx ∧ ∃ j ∈ els, b = j.idx) (fun σ => F σ + (inc.map (pairsOf σ els)).sum) m' := by
  induction inc generalizing m P F with
  | nil => exact ⟨m, rfl, h.congr (fun _ _ hp => .inl hp) (fun σ => by simp)⟩
  | cons i inc ih =>
    obtain ⟨h1, h2⟩ := List.pairwise_cons.mp hinc
    rw [Py.run_forM_cons]
    obtain ⟨m1, hr, hm1⟩ := h.inner now render (hi i (by simp)) hl
      (fun j hj hts => increasing_idx hl hj (hsub i (by simp)) hts) (hP i (by simp))
    rw [hr]
    obtain ⟨m2, hr2, hm2⟩ := ih hm1 (fun x hx => hi x (by simp [hx])) (fun x hx => hsub x (by simp [hx])) h2 (by
      rintro x hx j hj (hc | ⟨hc, _⟩)
      · exact hP x (by simp [hx]) j hj hc
      · have := (h1 x hx).2; omega)
    refine ⟨m2, hr2, hm2.congr ?_ ?_⟩
    · rintro a b ((hp | ⟨ha, j, hj, hb⟩) | ⟨x, hx, ha, j, hj, hb⟩)
      · exact .inl hp
      · exact .inr ⟨i, by simp, ha, j, hj, hb⟩
      · exact .inr ⟨x, by simp [hx], ha, j, hj, hb⟩
    · intro σ
      simp only [List.map_cons, List.sum_cons]
      ring

theorem Mid.drop (h : Mid k P F m) {o : El ℚ} (ho : o.idx < k) :
    ∃ m', (dropOne (xs k) o).run m = .ok ⟨⟩ m' ∧ Mid k P (fun σ => F (σ.subst (lab o) 0)) m' := by
  unfold dropOne
  rw [item_ok ho]
  simp only [Py.run_bind, Py.run_liftE]
  have hd := deleteVariable_run (xv o.idx) m h.rect (by rw [h.constraints]; exact List.nodup_nil)
  rw [h.constraints] at hd
  simp only [constraintsWithout] at hd
  have hne : ∀ n ∈ touching (xv o.idx).label m.rows, n ≠ "" := by
    intro n hn
    obtain ⟨a, b, _, _, rfl⟩ := h.names n (touching_sub n hn)
    unfold pname
    split <;> simp
  have hrun := removeLoop_run _ { m with deleted := sadd m.deleted (xv o.idx).label, constraints := [] } hne
    (fun n hn => touching_sub n hn) h.unique
  rw [hrun, rmNames_touching h.unique] at hd
  refine ⟨_, hd, ?_⟩
  have hE := C11_delete_energy_partial h.unique hd
  have hR := delete_rect (xv o.idx) m h.rect
  rw [hd] at hR
  have hrow : ∀ r ∈ m.rows.map (fun r => if r.touches (xv o.idx).label then rmRow r else r), ∃ r' ∈ m.rows,
      r.name = r'.name ∧ r.inter = r'.inter ∧ r.coef = r'.coef ∧ r.scale = r'.scale := by
    intro r hr
    obtain ⟨r', hr', rfl⟩ := List.mem_map.mp hr
    refine ⟨r', hr', ?_⟩
    split <;> exact ⟨rfl, rfl, rfl, rfl⟩
  have hnames : (m.rows.map (fun r => if r.touches (xv o.idx).label then rmRow r else r)).map (·.name) = m.names := by
    rw [List.map_map]
    apply List.map_congr_left
    intro r _
    simp only [Function.comp]
    split <;> rfl
  refine ⟨h.mtype, rfl, h.offset, hR, ?_, ?_, ?_, h.vars, ?_, ?_⟩
  · unfold LModel.names
    simp only [hnames]
    exact h.unique
  · intro r hr
    obtain ⟨r', hr', _, hi, _⟩ := hrow r hr
    rw [hi]
    exact h.ordered r' hr'
  · intro r hr
    obtain ⟨r', hr', _, _, hc, hs⟩ := hrow r hr
    rw [hc, hs]
    exact h.numeric r' hr'
  · intro n hn
    unfold LModel.names at hn
    simp only [hnames] at hn
    exact h.names n hn
  · intro ρ σ
    rw [hE, h.energy]
    rfl

/-- Several substitutions. -/
def zeroed (σ : Assign) (out : List (El ℚ)) : Assign := fun l => if l ∈ out.map lab then 0 else σ l

theorem Mid.drops (h : Mid k P F m) {out : List (El ℚ)} (ho : ∀ o ∈ out, o.idx < k) :
    ∃ m', (out.forM (dropOne (xs k))).run m = .ok ⟨⟩ m' ∧ Mid k P (fun σ => F (zeroed σ out)) m' := by
  induction out generalizing m F with
  | nil => exact ⟨m, rfl, h.congr (fun _ _ hp => hp) (fun σ => by
      congr 1)⟩
  | cons o out ih =>
    rw [Py.run_forM_cons]
    obtain ⟨m1, hr, hm1⟩ := h.drop (ho o (by simp))
    rw [hr]
    obtain ⟨m2, hr2, hm2⟩ := ih hm1 (fun x hx => ho x (by simp [hx]))
    refine ⟨m2, hr2, hm2.congr (fun _ _ hp => hp) fun σ => ?_⟩
    congr 1
    funext l
    simp only [zeroed, Assign.subst, List.map_cons, List.mem_cons]
    by_cases h1 : l = lab o
    · simp [h1]
    · simp [h1]

/-! ## The whole mapping -/

/-- The model of the numbers `W`, with `k` variables so far. -/
def Tracks (k : Nat) (W : List (El ℚ)) (m : LModel) : Prop :=
  (∀ e ∈ W, e.idx < k) ∧ Mid k (fun a _ => a < k) (fun σ => pairs σ W) m

theorem tracks_new (id : String) : Tracks 0 [] (LModel.new .ising id) := by
  refine ⟨by simp, rfl, rfl, rfl, new_rect _ _, List.nodup_nil, ?_, ?_, rfl, ?_, ?_⟩
  · intro r hr; cases hr
  · intro r hr; cases hr
  · intro r hr; cases hr
  · intro ρ σ
    simp [LModel.energy, LModel.new, Coef.eval, pairs, signedSum]

theorem Tracks.names_lt {W : List (El ℚ)} {m : LModel} (h : Tracks k W m) : ∀ e ∈ W, e.idx < k := h.1

theorem maxIndex_eq {i : El ℚ} {is : List (El ℚ)} (h : Ordered (i :: is)) :
    is.foldl (fun k e => max k e.idx) i.idx = ((i :: is).getLast (by simp)).idx := by
  induction is generalizing i with
  | nil => rfl
  | cons a is ih =>
    obtain ⟨h1, h2⟩ := List.pairwise_cons.mp h
    rw [List.foldl_cons, Nat.max_eq_right (h1 a (by simp)).2.le, ih h2]
    rfl

/-- The number of variables after the mapping. -/
def grown (k : Nat) (inc : List (El ℚ)) : Nat :=
  match inc.getLast? with
  | none => k
  | some e => e.idx + 1

theorem mappingVars_ok (h : Mid k P F m) {inc : List (El ℚ)} (hinc : Ordered inc) (hk : ∀ i ∈ inc, k ≤ i.idx)
    (hpos : inc = [] → 0 < k) :
    ∃ m', (mappingVars inc).run m = .ok (xs (grown k inc)) m' ∧ Mid (grown k inc) P F m' := by
  have hvars := h.vars
  cases inc with
  | nil =>
    refine ⟨m, ?_, h⟩
    rw [if_neg (by have := hpos rfl; omega)] at hvars
    unfold mappingVars
    simp only [Py.run_bind, Py.run_get, hvars]
    rfl
  | cons i is =>
    have hg : grown k (i :: is) = ((i :: is).getLast (by simp)).idx + 1 := by
      unfold grown
      rw [List.getLast?_eq_some_getLast (by simp)]
    have hle : k ≤ ((i :: is).getLast (by simp)).idx := hk _ (List.getLast_mem _)
    generalize hlast : ((i :: is).getLast (by simp)).idx = last at *
    have hs : m.allSize = k := by
      unfold LModel.allSize
      rw [hvars]
      by_cases h0 : k = 0
      · simp [h0]
      · simp [h0, xs, stdArray]
    have hset : ∀ vs, vs = [("x", xs (last + 1))] → Mid (last + 1) P F { m with vars := vs } := by
      rintro vs rfl
      exact ⟨h.mtype, h.constraints, h.offset, rect_same h.rect rfl rfl rfl rfl, h.unique, h.ordered, h.numeric, by simp, h.names,
        fun ρ σ => h.energy ρ σ⟩
    unfold mappingVars
    simp only [Py.run_bind, Py.run_get, maxIndex_eq hinc, hlast, hs]
    rw [hg, appendVars_run, if_neg (by simp), hvars]
    by_cases h0 : k = 0
    · subst h0
      simp only [if_true, dget]
      rw [createVars_run, if_neg (by simp), (arrayCreate_spec _ _ _).1 ⟨by simp, by simp, by decide⟩]
      have hx : stdArray "x" ([((last : Int) - (0 : Nat) + 1)].map Int.toNat) m.mtype.vtype = xs (last + 1) := by
        rw [h.mtype]
        unfold xs
        congr 1
      rw [hx]
      exact ⟨_, rfl, hset _ (by rw [hvars]; rfl)⟩
    · simp only [h0, if_false, dget, if_true]
      have hsh : elementwiseAdd ((xs k).shape.map Int.ofNat) [(last : Int) - k + 1] = [(last : Int) + 1] := by
        simp [xs, stdArray, elementwiseAdd]
        try omega
      rw [hsh, (arrayCreate_spec _ _ _).1 ⟨by simp, by simp, by decide⟩]
      have hx : stdArray "x" ([((last : Int) + 1)].map Int.toNat) m.mtype.vtype = xs (last + 1) := by
        rw [h.mtype]
        unfold xs
        congr 1
      rw [hx]
      exact ⟨_, rfl, hset _ rfl⟩

theorem le_getLast {l : List (El ℚ)} (h : Ordered l) {e : El ℚ} (he : e ∈ l) :
    e.idx ≤ (l.getLast (List.ne_nil_of_mem he)).idx := by
  have hne := List.ne_nil_of_mem he
  obtain ⟨a, b, hl⟩ : ∃ a b, l = a ++ [b] := ⟨_, _, (List.dropLast_append_getLast hne).symm⟩
  subst hl
  rw [List.getLast_append_singleton]
  rcases List.mem_append.mp he with h' | h'
  · exact ((List.pairwise_append.mp h).2.2 e h' b (by simp)).2.le
  · rw [List.mem_singleton.mp h']

theorem pairs_drop {σ : Assign} {out l : List (El ℚ)} (h : ∀ o ∈ out, σ (lab o) = 0) : pairs σ (out ++ l) = pairs σ l := by
  induction out with
  | nil => rfl
  | cons o out ih =>
    rw [List.cons_append, pairs_cons_zero (h o (by simp)), ih (fun x hx => h x (by simp [hx]))]

/-- What the mapping does to a model of `prev` when the numbers `out` leave and the numbers `inc` come. -/
theorem mapping_ok {S : Type} (now : ℚ) (render : El ℚ → String) (ps : Option S) {k : Nat} {m : LModel}
    {out kept inc : List (El ℚ)} (h : Tracks k (out ++ kept) m) (hinc : Increasing (out ++ kept ++ inc))
    (hk : ∀ i ∈ inc, k ≤ i.idx) (hpos : inc = [] → 0 < k) :
    ∃ m', (mapping now render ps (kept ++ inc) inc out).run m = .ok m' m' ∧ Tracks (grown k inc) (kept ++ inc) m' := by
  obtain ⟨hlt, hmid⟩ := h
  have hI : Increasing inc := (List.pairwise_append.mp hinc).2.1
  have hE : Increasing (kept ++ inc) := by
    rw [List.append_assoc] at hinc
    exact (List.pairwise_append.mp hinc).2.1
  have hI := hI.ordered
  obtain ⟨m1, hr1, hm1⟩ := mappingVars_ok hmid hI hk hpos
  have hg : ∀ i ∈ inc, i.idx < grown k inc := by
    intro i hi
    unfold grown
    rw [List.getLast?_eq_some_getLast (List.ne_nil_of_mem hi)]
    show i.idx < (inc.getLast _).idx + 1
    exact Nat.lt_succ_of_le (le_getLast hI hi)
  have hkg : k ≤ grown k inc := by
    cases inc with
    | nil => exact le_rfl
    | cons i is => exact (hk i (by simp)).trans (hg i (by simp)).le
  have hall : ∀ e ∈ kept ++ inc, e.idx < grown k inc := by
    intro e he
    rcases List.mem_append.mp he with he | he
    · exact (hlt e (by simp [he])).trans_le hkg
    · exact hg e he
  obtain ⟨m2, hr2, hm2⟩ := hm1.outer now render hg (fun i hi => by simp [hi]) hE.ordered hI
    (fun i hi j _ hP => absurd hP (not_lt.mpr (hk i hi)))
  obtain ⟨m3, hr3, hm3⟩ := hm2.drops (out := out) (fun o ho => (hlt o (by simp [ho])).trans_le hkg)
  refine ⟨m3, ?_, hall, hm3.congr ?_ ?_⟩
  · unfold mapping
    simp only [Py.run_bind, hr1, hr2, hr3, Py.run_get]
  · rintro a b (hp | ⟨i, hi, rfl, _⟩)
    · exact hp.trans_le hkg
    · exact hg i hi
  · intro σ
    have hz : ∀ e ∈ kept ++ inc, zeroed σ out (lab e) = σ (lab e) := by
      intro e he
      unfold zeroed
      rw [if_neg]
      intro hc
      obtain ⟨o, ho, hl⟩ := List.mem_map.mp hc
      have h1 := lab_inj hl
      rw [List.append_assoc] at hinc
      have h2 := ((List.pairwise_append.mp hinc).2.2 o ho e he).2
      omega
    show pairs (zeroed σ out) (out ++ kept) + (inc.map (pairsOf (zeroed σ out) (kept ++ inc))).sum = _
    rw [pairs_drop, pairs_congr (τ := σ) (fun e he => hz e (by simp [he])), pairs_append σ kept inc hE]
    · congr 2
      exact List.map_congr_left fun i hi => pairsOf_congr (hz i (by simp [hi])) hz
    · intro o ho
      unfold zeroed
      rw [if_pos (List.mem_map.mpr ⟨o, ho, rfl⟩)]

end Sawatabi.NppStream
