import Verif.Props.PhysicalTerms

/-!
# Conversions of a physical model (C28, C29)
-/

namespace Sawatabi.Props

variable {m m' : LModel} {env : Env} {clks : Nat → Nat → ℚ} {ids : Nat → String} {ph : List (String × ℚ)} {p : Physical}

/-! ## C28 -/

/-- `to_bqm()` (sign −1) has the energy of the physical model and its type. -/
theorem C28_bqm_energy (p : Physical) (σ : Assign) : (p.toBqm (-1)).energy σ = p.energy σ ∧ (p.toBqm (-1)).vartype = p.mtype.vtype := by
  refine ⟨?_, rfl⟩
  have h1 : ∀ {κ : Type} (d : List (κ × ℚ)) (f : κ → ℚ),
      ((d.map fun kv => (kv.1, -1 * kv.2)).map fun kv => kv.2 * f kv.1).sum = - (d.map fun kv => kv.2 * f kv.1).sum := by
    intro κ d f
    induction d with
    | nil => simp
    | cons x d ih => simp only [List.map_cons, List.sum_cons, ih]; ring
  simp only [Bqm.energy, Physical.energy, Physical.toBqm]
  rw [h1 p.linear (fun k => σ k), h1 p.quad (fun k => σ k.1 * σ k.2)]
  ring

/-- With sign +1, as the Sawatabi solver calls it, the energy is mirrored at the offset. -/
theorem C28_bqm_energy_positive (p : Physical) (σ : Assign) : (p.toBqm 1).energy σ = 2 * p.offset - p.energy σ := by
  simp only [Bqm.energy, Physical.energy, Physical.toBqm, List.map_map, Function.comp_def, one_mul]
  ring

/-- From the logical model to the BQM: same energy (no constraints). -/
theorem C28_logical_partial (hm : m.Rect) (hc : m.constraints = []) (h : (toPhysical env clks ids ph).run m = .ok p m')
    {ρ : PEnv} (hρ : ρ.Extends ph) (σ : Assign) : (p.toBqm (-1)).energy σ = m.energy ρ σ := by
  rw [(C28_bqm_energy p σ).1]
  exact C19_energy_partial hm hc h hρ σ

/-! ## C29 -/

theorem mapM_forall₂ {α β : Type} {f : α → Except Err β} {l : List α} {ys : List β} (h : l.mapM f = .ok ys) :
    List.Forall₂ (fun a b => f a = .ok b) l ys := by
  induction l generalizing ys with
  | nil => cases h; exact .nil
  | cons a l ih =>
    rw [List.mapM_cons] at h
    cases hf : f a with
    | error e => rw [hf] at h; cases h
    | ok b =>
      rw [hf] at h
      cases hm : l.mapM f with
      | error e => simp only [bind, Except.bind, hm] at h; cases h
      | ok bs =>
        simp only [bind, Except.bind, hm, pure, Except.pure] at h
        cases h
        exact .cons hf (ih hm)

theorem index_ok_iff {l : String} {i : Nat} : p.index l = .ok i ↔ dget p.labelToIndex l = some i := by
  unfold Physical.index
  cases dget p.labelToIndex l <;> simp

theorem forall₂_sum {α β : Type} {R : α → β → Prop} {f : α → ℚ} {g : β → ℚ} {l : List α} {l' : List β}
    (h : List.Forall₂ R l l') (hf : ∀ a b, R a b → g b = f a) : (l'.map g).sum = (l.map f).sum := by
  induction h with
  | nil => rfl
  | cons h1 _ ih => rw [List.map_cons, List.map_cons, List.sum_cons, List.sum_cons, hf _ _ h1, ih]

/-- For binary assignments the polynomial has the energy of the physical model minus its offset. `y` is the
index-encoded assignment, `σ` the labelled one. -/
theorem C29_polynomial_energy {t : List (Nat × Nat × ℚ)} (h : p.toPolynomial = .ok t) {y : Nat → ℚ} {σ : Assign}
    (hy : ∀ i, y i = 0 ∨ y i = 1) (hσ : ∀ l i, dget p.labelToIndex l = some i → σ l = y i) :
    polyValue y t = p.energy σ - p.offset := by
  unfold Physical.toPolynomial at h
  generalize hx : (List.mapM _ p.linear : Except Err (List (Nat × Nat × ℚ))) = x at h
  generalize hz : (List.mapM _ p.quad : Except Err (List (Nat × Nat × ℚ))) = z at h
  cases x with
  | error e => cases h
  | ok l =>
    cases z with
    | error e => cases h
    | ok q =>
      simp only [bind, Except.bind, pure, Except.pure] at h
      cases h
      have e1 : (l.map fun e => e.2.2 * (y e.1 * y e.2.1)).sum = (p.linear.map fun kv => -(kv.2 * σ kv.1)).sum := by
        refine forall₂_sum (mapM_forall₂ hx) ?_
        rintro ⟨k, v⟩ ⟨i, j, c⟩ h
        cases hi : p.index k with
        | error e => simp only [hi] at h; cases h
        | ok i' =>
          simp only [hi] at h
          cases h
          rw [hσ k _ (index_ok_iff.mp hi)]
          rcases hy i with h0 | h0 <;> simp [h0]
      have e2 : (q.map fun e => e.2.2 * (y e.1 * y e.2.1)).sum =
          (p.quad.map fun kv => -(kv.2 * (σ kv.1.1 * σ kv.1.2))).sum := by
        refine forall₂_sum (mapM_forall₂ hz) ?_
        rintro ⟨⟨k1, k2⟩, v⟩ ⟨i, j, c⟩ h
        cases hi : p.index k1 with
        | error e => simp only [hi] at h; cases h
        | ok i' =>
          cases hj : p.index k2 with
          | error e => simp only [hi, hj, bind, Except.bind] at h; cases h
          | ok j' =>
            simp only [hi, hj, bind, Except.bind] at h
            cases h
            rw [hσ k1 _ (index_ok_iff.mp hi), hσ k2 _ (index_ok_iff.mp hj)]
            simp
      have neg : ∀ {α : Type} (d : List α) (f : α → ℚ), (d.map fun a => -(f a)).sum = -(d.map f).sum := by
        intro α d f
        induction d with
        | nil => simp
        | cons a d ih => simp only [List.map_cons, List.sum_cons, ih]; ring
      rw [polyValue, List.map_append, List.sum_append, e1, e2, neg, neg]
      simp only [Physical.energy]
      ring

/-- Decoding a vector of bits by index: the `i`-th bit goes to the label with index `i`, and every label with an index
gets a bit. `dict(zip(p.index_to_label.values(), bits))` (optigan_solver.py:107, sawatabi_solver.py:161, 221). This holds
even if two arrays share a label: both maps let the last occurrence win. -/
theorem C29_decode (h : (toPhysical env clks ids ph).run m = .ok p m') {α : Type} (bits : List α)
    (hb : bits.length = p.indexToLabel.length) (l : String) (i : Nat) (hl : dget p.labelToIndex l = some i) :
    dget (((p.indexToLabel.map (·.2)).zip bits).foldl (fun d kv => dset d kv.1 kv.2) []) l = bits[i]? ∧
      ∃ b, bits[i]? = some b := by
  have hi := (index_last h l i).mp hl
  have hv := index_values h
  have hlen : bits.length = (indexed m p).length := by rw [hb, ← hv, List.length_map]
  have hlt : i < bits.length := by
    rw [hlen]
    exact (List.getElem?_eq_some_iff.mp hi.1).1
  rw [hv]
  exact ⟨foldl_dset_last hlen hi, bits[i], List.getElem?_eq_getElem hlt⟩

/-- Encoding and decoding together: reading a vector of bits through the sample gives the energy that the polynomial
assigns to the bits. -/
theorem C29_roundtrip (h : (toPhysical env clks ids ph).run m = .ok p m')
    {t : List (Nat × Nat × ℚ)} (ht : p.toPolynomial = .ok t) (bits : List ℚ) (hb : bits.length = p.indexToLabel.length)
    (h01 : ∀ b ∈ bits, b = 0 ∨ b = 1) :
    polyValue (fun i => bits[i]?.getD 0) t =
      p.energy (fun l => (dget (((p.indexToLabel.map (·.2)).zip bits).foldl (fun d kv => dset d kv.1 kv.2) []) l).getD 0)
        - p.offset := by
  refine C29_polynomial_energy ht (fun i => ?_) fun l i hl => ?_
  · cases hbi : bits[i]? with
    | none => exact .inl rfl
    | some b => exact h01 b (List.mem_of_getElem? hbi)
  · rw [(C29_decode h bits hb l i hl).1]

/-- A model with two arrays that share a label: two indices, one variable. -/
example :
    let m := Ex.after (LModel.new .qubo "1") (do
      let _ ← createVars "x[0]" [1]
      let _ ← createVars "x" [1, 1]
      addInteraction 1 (.var ⟨.binary, "x[0][0]"⟩) (.str "") (.num 1) (.num 1) .none .none)
    ∃ p m', (toPhysical ⟨0, fun _ => ""⟩ (fun _ _ => 0) (fun _ => "1") []).run m = .ok p m' ∧
      p.toPolynomial = .ok [(1, 1, -1)] ∧ p.indexToLabel.length = 2 := by
  refine ⟨_, _, rfl, ?_⟩
  decide +kernel

/-- Python's encoding of a physical model with three variables and its polynomial. -/
example : ∃ p m', (toPhysical ⟨0, fun _ => ""⟩ (fun _ _ => 0) (fun _ => "1") [("p", 2)]).run Ex.qubo = .ok p m' ∧
    p.toPolynomial = .ok [(0, 0, -6), (2, 2, 4), (0, 1, -2)] ∧ p.labelToIndex.length = 3 := by
  refine ⟨_, _, rfl, ?_⟩
  decide +kernel

end Sawatabi.Props
