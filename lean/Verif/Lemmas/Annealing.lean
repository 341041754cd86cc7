import Verif.Lemmas.Solver

/-!
# Lemmas: the annealing loops
-/

namespace Sawatabi

variable {p : Physical} {ls : List String} {s : Problem} {γ : Type} {rng : Rng γ} {exp : ℚ → Except Err ℚ} {o : Options}

/-! ## States as assignments -/

theorem spinAssign_of_mem {x : List ℤ} {v : String} {i : Nat} {a : ℤ} (hn : ls.Nodup) (hi : ls[i]? = some v) (ha : x[i]? = some a) :
    spinAssign ls x v = a := by
  unfold spinAssign
  rw [idxOf_getElem?' hn hi, ha]
  rfl

theorem spinAssign_flip {x : List ℤ} {v : String} {i : Nat} {a : ℤ} (hn : ls.Nodup) (hx : x.length = ls.length)
    (hi : ls[i]? = some v) (ha : x[i]? = some a) :
    spinAssign ls (x.set i (a * -1)) = (spinAssign ls x).subst v (- spinAssign ls x v) := by
  funext l
  unfold Assign.subst
  have hil : i < ls.length := (List.getElem?_eq_some_iff.mp hi).1
  by_cases h : l = v
  · subst h
    rw [if_pos rfl, spinAssign_of_mem hn hi ha, spinAssign_of_mem (a := a * -1) hn hi]
    · push_cast; ring
    · rw [List.getElem?_set_self (by omega)]
  · rw [if_neg h]
    unfold spinAssign
    rw [List.getElem?_set_ne]
    intro he
    by_cases hl : l ∈ ls
    · rw [he, getElem?_idxOf' hl] at hi
      exact h (Option.some.inj hi)
    · rw [List.idxOf_eq_length hl] at he
      omega

theorem decode_eq (h : p.Ready ls) {x : List ℤ} (hx : x.length = ls.length) : decode p x = ls.zip x := by
  unfold decode
  have e : p.indexToLabel.map (·.2) = ls := by
    rw [h.indexToLabel, List.map_map]
    exact List.zipIdx_map_fst 0 ls
  rw [e]
  have key : ∀ (l d : List (String × ℤ)), (dkeys l).Nodup → (∀ k ∈ dkeys l, k ∉ dkeys d) →
      l.foldl (fun d kv => dset d kv.1 kv.2) d = d ++ l := by
    intro l
    induction l with
    | nil => intro d _ _; simp
    | cons kv l ih =>
      intro d h1 h2
      simp only [dkeys, List.map_cons, List.nodup_cons] at h1
      rw [List.foldl_cons, dset_of_not_mem _ (h2 kv.1 (by simp [dkeys])), ih _ h1.2]
      · simp
      · intro k hk
        simp only [dkeys, List.map_append, List.map_cons, List.map_nil, List.mem_append, List.mem_singleton]
        rintro (hm | hm)
        · exact h2 k (by simp only [dkeys, List.map_cons, List.mem_cons]; exact Or.inr hk) hm
        · subst hm; exact h1.1 hk
  have := key (ls.zip x) [] ?_ (by simp [dkeys])
  · simpa using this
  · unfold dkeys
    rw [List.map_fst_zip (by omega)]
    exact h.nodup

theorem dget_zip {ls : List String} {x : List ℤ} (hn : ls.Nodup) {l : String} {i : Nat} (hi : ls[i]? = some l) :
    dget (ls.zip x) l = x[i]? := by
  induction ls generalizing x i with
  | nil => simp at hi
  | cons k ls ih =>
    rw [List.nodup_cons] at hn
    cases x with
    | nil => simp [dget]
    | cons a x =>
      cases i with
      | zero =>
        simp at hi
        subst hi
        simp [dget]
      | succ i =>
        simp at hi
        have hne : k ≠ l := by
          rintro rfl
          exact hn.1 (List.mem_of_getElem? hi)
        simp only [List.zip_cons_cons, dget, if_neg hne, List.getElem?_cons_succ]
        exact ih hn.2 hi

theorem zip_assign {x : List ℤ} (hn : ls.Nodup) (hx : x.length = ls.length) : Sample.assign (ls.zip x) = spinAssign ls x := by
  funext l
  unfold Sample.assign spinAssign
  by_cases hl : l ∈ ls
  · rw [dget_zip hn (getElem?_idxOf' hl)]
  · have : dget (ls.zip x) l = none := by
      rw [dget_eq_none_iff]
      intro hm
      unfold dkeys at hm
      rw [List.map_fst_zip (by omega)] at hm
      exact hl hm
    rw [this, List.idxOf_eq_length hl, List.getElem?_eq_none (by omega)]

theorem decode_assign (h : p.Ready ls) {x : List ℤ} (hx : x.length = ls.length) :
    (decode p x).assign = spinAssign ls x := by
  rw [decode_eq h hx, zip_assign h.nodup hx]

theorem mapM_ok_of {α β : Type} {l : List α} {f : α → Except Err β} {g : α → β} (h : ∀ a ∈ l, f a = .ok (g a)) :
    l.mapM f = .ok (l.map g) := by
  induction l with
  | nil => rfl
  | cons a l ih =>
    rw [List.mapM_cons, h a List.mem_cons_self, Except.bind_ok, ih fun a ha => h a (List.mem_cons_of_mem _ ha)]
    rfl

/-- dimod's energy of a decoded state. -/
theorem sampleEnergy_zip {b : Bqm} (hw : b.Wf) (hb : b.On ls) (hn : ls.Nodup) {x : List ℤ} (hx : x.length = ls.length) :
    b.sampleEnergy (ls.zip x) = .ok (b.energy (spinAssign ls x)) := by
  have hval : ∀ v ∈ ls, ∃ a, Sample.value (ls.zip x) v = .ok a ∧ (a : ℚ) = spinAssign ls x v := by
    intro v hv
    have hi := getElem?_idxOf' hv
    have hlt : ls.idxOf v < x.length := by rw [hx]; exact List.idxOf_lt_length_of_mem hv
    refine ⟨x[ls.idxOf v], ?_, ?_⟩
    · unfold Sample.value
      rw [dget_zip hn hi, List.getElem?_eq_getElem hlt]
    · rw [spinAssign_of_mem hn hi (List.getElem?_eq_getElem hlt)]
  unfold Bqm.sampleEnergy
  rw [mapM_ok_of (g := fun v => b.bias v * spinAssign ls x v)]
  · rw [Except.bind_ok, mapM_ok_of (g := fun kv => kv.2 * (spinAssign ls x kv.1.1 * spinAssign ls x kv.1.2))]
    · rw [Except.bind_ok, Except.pure_ok]
      have := sum_bias hw.linear b.variables_nodup b.vars_linear (spinAssign ls x)
      simp only [Bqm.energy, Bqm.bias, this]
    · intro kv hkv
      obtain ⟨m1, m2⟩ := b.vars_quad kv.1 (List.mem_map_of_mem hkv)
      obtain ⟨a, ha, ea⟩ := hval _ ((hb _).mp m1)
      obtain ⟨c, hc, ec⟩ := hval _ ((hb _).mp m2)
      rw [ha, Except.bind_ok, hc, Except.bind_ok, ea, ec]
      rfl
  · intro v hv
    obtain ⟨a, ha, ea⟩ := hval v ((hb v).mp hv)
    rw [ha, Except.bind_ok, ea]
    rfl

/-! ## One flip -/

/-- The change of the annealing energy when variable `v` is flipped. -/
def Problem.delta (s : Problem) (ls : List String) (x : List ℤ) (v : String) : ℚ :=
  - s.bqm.energy ((spinAssign ls x).subst v (- spinAssign ls x v)) - - s.bqm.energy (spinAssign ls x)

theorem calcDiff_ok (h : s.Arrays ls) {x : List ℤ} (hx : x.length = ls.length) {i : Nat} {v : String} (hi : ls[i]? = some v) :
    calcDiff s i x = .ok (s.delta ls x v) := by
  have hlt : i < x.length := by rw [hx]; exact (List.getElem?_eq_some_iff.mp hi).1
  have hxi : x[i]? = some x[i] := List.getElem?_eq_getElem hlt
  have hv := spinAssign_of_mem h.ready.nodup hi hxi
  unfold calcDiff
  rw [listGet_ok.mpr hxi, Except.bind_ok, listGet_ok.mpr (h.linear i v hi), Except.bind_ok,
    listGet_ok.mpr (h.adj i v hi), Except.bind_ok]
  have key : ∀ (l : List (String × ℚ)) (d : ℚ), (∀ e ∈ l, e.1 ∈ ls) →
      (l.map fun e => (ls.idxOf e.1, e.2)).foldlM (fun d kv => do
        let xj ← listGet x kv.1
        return d + (x[i] : ℚ) * (xj : ℚ) * kv.2) d =
      Except.ok (ε := Err) (d + (l.map fun e => e.2 * spinAssign ls x e.1).sum * spinAssign ls x v) := by
    intro l
    induction l with
    | nil => intro d _; simp [Except.pure_ok]
    | cons e l ih =>
      intro d hl
      have he := hl e List.mem_cons_self
      have hj : ls.idxOf e.1 < x.length := by rw [hx]; exact List.idxOf_lt_length_of_mem he
      rw [List.map_cons, List.foldlM_cons, listGet_ok.mpr (List.getElem?_eq_getElem hj), Except.bind_ok, Except.pure_ok,
        Except.bind_ok, ih _ fun e he => hl e (List.mem_cons_of_mem _ he), List.map_cons, List.sum_cons, hv,
        spinAssign_of_mem h.ready.nodup (getElem?_idxOf' he) (List.getElem?_eq_getElem hj)]
      congr 1
      ring
  rw [key _ _ (neighbours_on h.on), Except.bind_ok, Except.pure_ok]
  congr 1
  unfold Problem.delta
  rw [Bqm.flip_energy h.wf, hv]
  ring

theorem isAcceptable_ok {rands : List ℚ} {used u : Nat} {d t : ℚ} {a : Bool}
    (h : isAcceptable exp rands used d t = .ok (a, u)) :
    (d ≤ 0 ∧ a = true ∧ u = used) ∨ (0 < d ∧ u = used + 1 ∧ ∃ r q, rands[used]? = some r ∧
      ((t = 0 ∧ q = 0) ∨ (t ≠ 0 ∧ exp (-d / t) = .ok q)) ∧ a = decide (r < q)) := by
  unfold isAcceptable at h
  by_cases hd : d ≤ 0
  · rw [if_pos hd] at h
    cases h
    exact .inl ⟨hd, rfl, rfl⟩
  · rw [if_neg hd] at h
    by_cases ht : t = 0
    · rw [if_pos ht] at h
      simp only [bind_eq_ok, Except.pure_ok, listGet_ok] at h
      obtain ⟨q, hq, r, hr, he⟩ := h
      cases he
      cases hq
      exact .inr ⟨not_le.mp hd, rfl, r, 0, hr, .inl ⟨ht, rfl⟩, rfl⟩
    · rw [if_neg ht] at h
      simp only [bind_eq_ok, Except.pure_ok, listGet_ok] at h
      obtain ⟨q, hq, r, hr, he⟩ := h
      cases he
      exact .inr ⟨not_le.mp hd, rfl, r, q, hr, .inr ⟨ht, hq⟩, rfl⟩

/-- One round of the inner loop: decide, then flip. -/
theorem innerStep_eq (h : s.Ok ls) {rands : List ℚ} {T : ℚ} {t : Inner} (hx : t.x.length = ls.length) {i : Nat} {v : String}
    (hi : ls[i]? = some v) {xi : ℤ} (hxi : t.x[i]? = some xi) :
    innerStep exp s rands T t i = (isAcceptable exp rands t.used (s.delta ls t.x v) T).map fun r =>
      if r.1 then ⟨t.x.set i (xi * -1), t.energy + s.delta ls t.x v, r.2, t.acceptances + 1⟩
      else { t with used := r.2 } := by
  unfold innerStep
  rw [calcDiff_ok h.toArrays hx hi, Except.bind_ok]
  cases hacc : isAcceptable exp rands t.used (s.delta ls t.x v) T with
  | error e => rfl
  | ok r =>
    obtain ⟨a, u⟩ := r
    have hlt : i < t.x.length := (List.getElem?_eq_some_iff.mp hxi).1
    simp only [Except.bind_ok, Except.map, Except.pure_ok]
    cases a with
    | false => rfl
    | true =>
      simp only [if_true]
      rw [listGet_ok.mpr hxi, Except.bind_ok, listSet_ok.mpr ⟨hlt, rfl⟩, Except.bind_ok]

/-- What the inner loop maintains. -/
structure Inner.Inv (s : Problem) (ls : List String) (x : List ℤ) (energy : ℚ) : Prop where
  length : x.length = ls.length
  spins : IsSpins x
  energy : energy = - s.bqm.energy (spinAssign ls x)

theorem innerStep_inv (h : s.Ok ls) {rands : List ℚ} {T : ℚ} {t t' : Inner} {i : Nat} (hi : i < ls.length)
    (hinv : Inner.Inv s ls t.x t.energy) (hr : innerStep exp s rands T t i = .ok t') :
    Inner.Inv s ls t'.x t'.energy ∧ t'.used ≤ t.used + 1 ∧ t'.acceptances ≤ t.acceptances + 1 ∧
    (t'.x = t.x ∧ t'.energy = t.energy ∧ t'.acceptances = t.acceptances ∨
      (∃ xi, t.x[i]? = some xi ∧ t'.x = t.x.set i (xi * -1)) ∧ t'.acceptances = t.acceptances + 1) := by
  have hlt : i < t.x.length := by rw [hinv.length]; exact hi
  have hxi := List.getElem?_eq_getElem hlt
  have hi' := List.getElem?_eq_getElem hi
  rw [innerStep_eq h hinv.length hi' hxi] at hr
  cases hacc : isAcceptable exp rands t.used (s.delta ls t.x ls[i]) T with
  | error e => rw [hacc] at hr; cases hr
  | ok r =>
    obtain ⟨a, u⟩ := r
    rw [hacc] at hr
    simp only [Except.map] at hr
    have hu : u ≤ t.used + 1 := by
      rcases isAcceptable_ok hacc with ⟨_, _, hu⟩ | ⟨_, hu, _⟩ <;> omega
    cases a with
    | false =>
      simp only [Bool.false_eq_true, if_false, Except.ok.injEq] at hr
      subst hr
      exact ⟨hinv, hu, by simp, .inl ⟨rfl, rfl, rfl⟩⟩
    | true =>
      simp only [if_true, Except.ok.injEq] at hr
      subst hr
      refine ⟨⟨by simp [hinv.length], ?_, ?_⟩, hu, le_refl _, .inr ⟨⟨_, hxi, rfl⟩, rfl⟩⟩
      · intro a ha
        rcases List.mem_or_eq_of_mem_set ha with h' | h'
        · exact hinv.spins a h'
        · subst h'
          rcases hinv.spins _ (List.getElem_mem hlt) with h' | h' <;> rw [h'] <;> simp
      · simp only [spinAssign_flip h.ready.nodup hinv.length hi' hxi, Problem.delta, hinv.energy]
        ring

/-- The inner loop. -/
theorem inner_inv (h : s.Ok ls) {rands : List ℚ} {T : ℚ} (ps : List Nat) {t t' : Inner} (hps : ∀ i ∈ ps, i < ls.length)
    (hinv : Inner.Inv s ls t.x t.energy) (hr : ps.foldlM (innerStep exp s rands T) t = .ok t') :
    Inner.Inv s ls t'.x t'.energy ∧ t'.used ≤ t.used + ps.length ∧ t'.acceptances ≤ t.acceptances + ps.length := by
  induction ps generalizing t with
  | nil => cases hr; exact ⟨hinv, by simp, by simp⟩
  | cons i ps ih =>
    rw [List.foldlM_cons, bind_eq_ok] at hr
    obtain ⟨t1, h1, h2⟩ := hr
    obtain ⟨a1, a2, a3, _⟩ := innerStep_inv h (hps i List.mem_cons_self) hinv h1
    obtain ⟨b1, b2, b3⟩ := ih (fun j hj => hps j (List.mem_cons_of_mem _ hj)) a1 h2
    refine ⟨b1, ?_, ?_⟩ <;> simp only [List.length_cons] <;> omega

/-- `exp` does not raise at temperature `T`. -/
def ExpOk (exp : ℚ → Except Err ℚ) (T : ℚ) : Prop := T ≠ 0 → ∀ d, 0 < d → ∃ q, exp (-d / T) = .ok q

theorem innerStep_total (h : s.Ok ls) {rands : List ℚ} {T : ℚ} {t : Inner} {i : Nat} (hi : i < ls.length)
    (hx : t.x.length = ls.length) (he : ExpOk exp T) (hu : t.used < rands.length) :
    ∃ t', innerStep exp s rands T t i = .ok t' := by
  have hlt : i < t.x.length := by rw [hx]; exact hi
  rw [innerStep_eq h hx (List.getElem?_eq_getElem hi) (List.getElem?_eq_getElem hlt)]
  generalize s.delta ls t.x ls[i] = d
  have : ∃ r, isAcceptable exp rands t.used d T = .ok r := by
    unfold isAcceptable
    by_cases hd : d ≤ 0
    · rw [if_pos hd]; exact ⟨_, rfl⟩
    · rw [if_neg hd, listGet_ok.mpr (List.getElem?_eq_getElem hu)]
      by_cases hT : T = 0
      · rw [if_pos hT]; exact ⟨_, rfl⟩
      · rw [if_neg hT]
        obtain ⟨q, hq⟩ := he hT d (not_le.mp hd)
        rw [hq]
        exact ⟨_, rfl⟩
  obtain ⟨r, hr⟩ := this
  rw [hr]
  exact ⟨_, rfl⟩

theorem inner_total (h : s.Ok ls) {rands : List ℚ} {T : ℚ} (he : ExpOk exp T) (ps : List Nat) {t : Inner}
    (hps : ∀ i ∈ ps, i < ls.length) (hinv : Inner.Inv s ls t.x t.energy) (hu : t.used + ps.length ≤ rands.length) :
    ∃ t', ps.foldlM (innerStep exp s rands T) t = .ok t' := by
  induction ps generalizing t with
  | nil => exact ⟨_, rfl⟩
  | cons i ps ih =>
    simp only [List.length_cons] at hu
    obtain ⟨t1, h1⟩ := innerStep_total (exp := exp) (rands := rands) h (hps i List.mem_cons_self) hinv.length he (by omega)
    obtain ⟨a1, a2, _⟩ := innerStep_inv h (hps i List.mem_cons_self) hinv h1
    rw [List.foldlM_cons, h1, Except.bind_ok]
    exact ih (fun j hj => hps j (List.mem_cons_of_mem _ hj)) a1 (by omega)

end Sawatabi
