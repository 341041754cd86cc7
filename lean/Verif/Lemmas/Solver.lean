import Verif.Lemmas.Bqm

/-!
# Lemmas: the preparation of the annealing
-/

namespace Sawatabi

variable {p : Physical} {ls : List String} {b : Bqm}

theorem Except.bind_ok {ε α β : Type} (a : α) (f : α → Except ε β) : (Except.ok a >>= f) = f a := rfl
theorem Except.bind_error {ε α β : Type} (e : ε) (f : α → Except ε β) : (Except.error e >>= f) = .error e := rfl
theorem Except.pure_ok {ε α : Type} (a : α) : (pure a : Except ε α) = .ok a := rfl

theorem bind_eq_ok {ε α β : Type} {x : Except ε α} {f : α → Except ε β} {r : β} :
    (x >>= f) = .ok r ↔ ∃ a, x = .ok a ∧ f a = .ok r := by
  cases x with
  | error e => simp [Except.bind_error]
  | ok a => simp [Except.bind_ok]

theorem listGet_ok {α : Type} {l : List α} {i : Nat} {v : α} : listGet l i = .ok v ↔ l[i]? = some v := by
  unfold listGet
  cases l[i]? <;> simp

theorem listSet_ok {α : Type} {l r : List α} {i : Nat} {v : α} : listSet l i v = .ok r ↔ i < l.length ∧ r = l.set i v := by
  unfold listSet
  split
  · rename_i h
    simp [h, eq_comm]
  · rename_i h
    simp [h]

/-! ## Indices -/

theorem Physical.Ready.index (h : p.Ready ls) {v : String} {i : Nat} : p.index v = .ok i ↔ ls[i]? = some v := by
  rw [← dget_zipIdx h.nodup v i, ← h.labelToIndex]
  unfold Physical.index
  cases dget p.labelToIndex v <;> simp

theorem getElem?_idxOf' {ls : List String} {v : String} (hv : v ∈ ls) : ls[ls.idxOf v]? = some v := by
  rw [List.getElem?_eq_getElem (List.idxOf_lt_length_of_mem hv), List.getElem_idxOf]

theorem idxOf_getElem?' {ls : List String} (hn : ls.Nodup) {v : String} {i : Nat} (h : ls[i]? = some v) : ls.idxOf v = i := by
  obtain ⟨hi, rfl⟩ := List.getElem?_eq_some_iff.mp h
  exact hn.idxOf_getElem i hi

theorem Physical.Ready.index_mem (h : p.Ready ls) {v : String} (hv : v ∈ ls) : p.index v = .ok (ls.idxOf v) :=
  h.index.mpr (getElem?_idxOf' hv)

/-- Filling an array entry by entry. -/
theorem fill_array {α : Type} (h : p.Ready ls) (f : String → Except Err α) (g : String → α) (vs : List String)
    (hf : ∀ v ∈ vs, f v = .ok (g v)) (hv : ∀ v ∈ vs, v ∈ ls) (arr : List α) (ha : arr.length = ls.length) :
    ∃ r, vs.foldlM (fun arr v => do
        let i ← p.index v
        let d ← f v
        listSet arr i d) arr = Except.ok r ∧ r.length = ls.length ∧
      ∀ (i : Nat) (v : String), ls[i]? = some v → r[i]? = if v ∈ vs then some (g v) else arr[i]? := by
  induction vs generalizing arr with
  | nil => exact ⟨arr, rfl, ha, fun i v _ => by simp⟩
  | cons w vs ih =>
    have hw := hv w List.mem_cons_self
    have hlt : ls.idxOf w < arr.length := by rw [ha]; exact List.idxOf_lt_length_of_mem hw
    rw [List.foldlM_cons, h.index_mem hw, Except.bind_ok, hf w List.mem_cons_self, Except.bind_ok,
      listSet_ok.mpr ⟨hlt, rfl⟩, Except.bind_ok]
    obtain ⟨r, hr, hlen, hget⟩ := ih (fun v hv => hf v (List.mem_cons_of_mem _ hv)) (fun v h => hv v (List.mem_cons_of_mem _ h))
      (arr.set (ls.idxOf w) (g w)) (by simp [ha])
    refine ⟨r, hr, hlen, fun i v hi => ?_⟩
    rw [hget i v hi]
    by_cases h1 : v ∈ vs
    · simp [h1]
    · rw [if_neg h1]
      by_cases h2 : v = w
      · subst h2
        have := idxOf_getElem?' h.nodup hi
        rw [this, if_pos List.mem_cons_self, List.getElem?_set_self (by rw [← this]; exact hlt)]
      · have hne : ls.idxOf w ≠ i := by
          intro he
          rw [← he, getElem?_idxOf' hw] at hi
          exact h2 (Option.some.inj hi).symm
        rw [List.getElem?_set_ne hne, if_neg]
        simp [h1, h2]

/-- The variables of a prepared model are the labels with an index. -/
def Bqm.On (b : Bqm) (ls : List String) : Prop := ∀ l, l ∈ b.variables ↔ l ∈ ls

theorem Bqm.On.length (hb : b.On ls) (hn : ls.Nodup) : b.variables.length = ls.length :=
  ((List.perm_ext_iff_of_nodup b.variables_nodup hn).mpr hb).length_eq

theorem linearArray_ok (h : p.Ready ls) (hb : b.On ls) :
    ∃ r, linearArray p b = .ok r ∧ r.length = ls.length ∧ ∀ (i : Nat) (v : String), ls[i]? = some v → r[i]? = some (b.bias v) := by
  obtain ⟨r, hr, hlen, hget⟩ := fill_array h (fun v => .ok (b.bias v)) b.bias b.variables (fun _ _ => rfl)
    (fun v hv => (hb v).mp hv) (List.replicate b.variables.length 0) (by rw [List.length_replicate, hb.length h.nodup])
  refine ⟨r, hr, hlen, fun i v hi => ?_⟩
  rw [hget i v hi, if_pos ((hb v).mpr (List.mem_of_getElem? hi))]

theorem neighbours_mem {v w : String} {c : ℚ} (h : (w, c) ∈ b.neighbours v) :
    ((v, w), c) ∈ b.quad ∨ ((w, v), c) ∈ b.quad := by
  unfold Bqm.neighbours at h
  obtain ⟨kv, hkv, he⟩ := List.mem_filterMap.mp h
  obtain ⟨⟨x, y⟩, d⟩ := kv
  simp only at he
  split at he
  · rename_i hx
    cases he
    subst hx
    exact .inl hkv
  · split at he
    · rename_i hy
      cases he
      subst hy
      exact .inr hkv
    · cases he

theorem neighbours_nodup (hb : b.Wf) (v : String) : (dkeys (b.neighbours v)).Nodup := by
  obtain ⟨vt, lin, quad, off⟩ := b
  have hq := hb.quad
  have ho := hb.ordered
  clear hb
  simp only at hq ho
  induction quad with
  | nil => simp [Bqm.neighbours, dkeys]
  | cons kv q ih =>
    have hq' : (dkeys q).Nodup := by simp [dkeys] at hq; simpa [dkeys] using hq.2
    have hk : kv.1 ∉ dkeys q := by simp only [dkeys, List.map_cons, List.nodup_cons] at hq; exact hq.1
    have ho' : ∀ k ∈ dkeys q, k.1 < k.2 := fun k hk => ho k (by simp [dkeys] at hk ⊢; exact Or.inr hk)
    have ih := ih hq' ho'
    have hlt : kv.1.1 < kv.1.2 := ho kv.1 (by simp [dkeys])
    simp only [Bqm.neighbours, List.filterMap_cons]
    obtain ⟨⟨x, y⟩, d⟩ := kv
    simp only at hlt ⊢
    by_cases h1 : x = v
    · subst h1
      simp only [if_true]
      simp only [dkeys, List.map_cons, List.nodup_cons]
      refine ⟨?_, ih⟩
      intro hm
      obtain ⟨⟨w, c⟩, hm2, hw⟩ := List.mem_map.mp hm
      simp only at hw
      subst hw
      rcases neighbours_mem (b := ⟨vt, lin, q, off⟩) hm2 with h | h
      · exact hk (List.mem_map.mpr ⟨_, h, rfl⟩)
      · exact absurd (lt_trans hlt (ho' _ (List.mem_map_of_mem h))) (lt_irrefl _)
    · by_cases h2 : y = v
      · subst h2
        simp only [if_neg h1, if_true]
        simp only [dkeys, List.map_cons, List.nodup_cons]
        refine ⟨?_, ih⟩
        intro hm
        obtain ⟨⟨w, c⟩, hm2, hw⟩ := List.mem_map.mp hm
        simp only at hw
        subst hw
        rcases neighbours_mem (b := ⟨vt, lin, q, off⟩) hm2 with h | h
        · exact absurd (lt_trans hlt (ho' _ (List.mem_map_of_mem h))) (lt_irrefl _)
        · exact hk (List.mem_map.mpr ⟨_, h, rfl⟩)
      · simp only [if_neg h1, if_neg h2]
        exact ih

theorem neighbours_on (hb : b.On ls) {v : String} : ∀ e ∈ b.neighbours v, e.1 ∈ ls := by
  rintro ⟨w, c⟩ he
  rw [← hb, b.mem_variables]
  rcases neighbours_mem he with h | h
  · exact .inr ⟨_, List.mem_map_of_mem h, .inr rfl⟩
  · exact .inr ⟨_, List.mem_map_of_mem h, .inl rfl⟩

theorem adjDict_ok (h : p.Ready ls) (hw : b.Wf) (hb : b.On ls) (v : String) :
    adjDict p b v = .ok ((b.neighbours v).map fun e => (ls.idxOf e.1, e.2)) := by
  unfold adjDict
  have key : ∀ (l : List (String × ℚ)) (d : List (Nat × ℚ)), (∀ e ∈ l, e.1 ∈ ls) → (dkeys l).Nodup →
      (∀ e ∈ l, ls.idxOf e.1 ∉ dkeys d) →
      l.foldlM (fun d kv => do
        let i ← p.index kv.1
        return dset d i kv.2) d = Except.ok (d ++ l.map fun e => (ls.idxOf e.1, e.2)) := by
    intro l
    induction l with
    | nil => intro d _ _ _; simp [Except.pure_ok]
    | cons e l ih =>
      intro d h1 h2 h3
      simp only [dkeys, List.map_cons, List.nodup_cons] at h2
      rw [List.foldlM_cons, h.index_mem (h1 e List.mem_cons_self), Except.bind_ok, Except.pure_ok, Except.bind_ok,
        dset_of_not_mem _ (h3 e List.mem_cons_self), ih]
      · simp
      · exact fun e he => h1 e (List.mem_cons_of_mem _ he)
      · exact h2.2
      · intro e' he'
        simp only [dkeys, List.map_append, List.map_cons, List.map_nil, List.mem_append, List.mem_singleton]
        rintro (hm | hm)
        · exact h3 e' (List.mem_cons_of_mem _ he') hm
        · have e1 := getElem?_idxOf' (h1 e' (List.mem_cons_of_mem _ he'))
          rw [hm, getElem?_idxOf' (h1 e List.mem_cons_self)] at e1
          exact h2.1 (by rw [Option.some.inj e1]; exact List.mem_map_of_mem he')
  have := key (b.neighbours v) [] (neighbours_on hb) (neighbours_nodup hw v) (by simp [dkeys])
  rw [this]
  rfl

theorem adjArray_ok (h : p.Ready ls) (hw : b.Wf) (hb : b.On ls) :
    ∃ r, adjArray p b = .ok r ∧ r.length = ls.length ∧
      ∀ (i : Nat) (v : String), ls[i]? = some v → r[i]? = some ((b.neighbours v).map fun e => (ls.idxOf e.1, e.2)) := by
  obtain ⟨r, hr, hlen, hget⟩ := fill_array h (adjDict p b) (fun v => (b.neighbours v).map fun e => (ls.idxOf e.1, e.2))
    b.variables (fun v _ => adjDict_ok h hw hb v) (fun v hv => (hb v).mp hv) (List.replicate b.variables.length [])
    (by rw [List.length_replicate, hb.length h.nodup])
  refine ⟨r, hr, hlen, fun i v hi => ?_⟩
  rw [hget i v hi, if_pos ((hb v).mpr (List.mem_of_getElem? hi))]

/-! ## The prepared problem -/

/-- The arrays of a problem hold the coefficients of its `bqm`. -/
structure Problem.Arrays (s : Problem) (ls : List String) : Prop where
  ready : s.model.Ready ls
  wf : s.bqm.Wf
  on : s.bqm.On ls
  linear : ∀ (i : Nat) (v : String), ls[i]? = some v → s.linear[i]? = some (s.bqm.bias v)
  adj : ∀ (i : Nat) (v : String), ls[i]? = some v → s.adj[i]? = some ((s.bqm.neighbours v).map fun e => (ls.idxOf e.1, e.2))

/-- What `prepare` establishes. -/
structure Problem.Ok (s : Problem) (ls : List String) : Prop extends s.Arrays ls where
  original : s.original = s.model.toBqm 1
  bqm : s.bqm = if s.model.mtype.vtype = .spin then s.original else s.original.toSpin

theorem toBqm_keys (p : Physical) (c : ℚ) : dkeys (p.toBqm c).linear = dkeys p.linear ∧ dkeys (p.toBqm c).quad = dkeys p.quad := by
  simp [Physical.toBqm, dkeys, Function.comp_def]

theorem Physical.Ready.wf (h : p.Ready ls) (c : ℚ) : (p.toBqm c).Wf := by
  obtain ⟨h1, h2⟩ := toBqm_keys p c
  exact ⟨by rw [h1]; exact h.linear, by rw [h2]; exact h.quad, by rw [h2]; exact h.ordered⟩

theorem Physical.Ready.on (h : p.Ready ls) (c : ℚ) : (p.toBqm c).On ls := by
  obtain ⟨h1, h2⟩ := toBqm_keys p c
  intro l
  rw [Bqm.mem_variables, h1, h2, h.mem]

theorem prepare_ok (h : p.Ready ls) : ∃ s, prepare p = .ok s ∧ s.Ok ls ∧ s.model = p := by
  unfold prepare
  have hb : ∃ b, (if (p.toBqm 1).vartype ≠ .spin then (p.toBqm 1).toSpin else p.toBqm 1) = b ∧ b.Wf ∧ b.On ls ∧
      b = if p.mtype.vtype = .spin then p.toBqm 1 else (p.toBqm 1).toSpin := by
    refine ⟨_, rfl, ?_⟩
    have : (p.toBqm 1).vartype = p.mtype.vtype := rfl
    rw [this]
    by_cases ht : p.mtype.vtype = .spin
    · simp only [ht, ne_eq, not_true_eq_false, if_false, if_true, and_true]
      exact ⟨h.wf 1, h.on 1⟩
    · simp only [ht, ne_eq, not_false_eq_true, if_true, if_false, and_true]
      exact ⟨Bqm.toSpin_wf (h.wf 1), fun l => (Bqm.toSpin_mem _ l).trans (h.on 1 l)⟩
  obtain ⟨b, e, hw, ho, hbe⟩ := hb
  obtain ⟨l, hl, _, hlg⟩ := linearArray_ok h ho
  obtain ⟨a, ha, _, hag⟩ := adjArray_ok h hw ho
  simp only [e, hl, ha, Except.bind_ok]
  exact ⟨_, rfl, ⟨⟨h, hw, ho, hlg, hag⟩, rfl, hbe⟩, rfl⟩

theorem Problem.Arrays.size {s : Problem} (h : s.Arrays ls) : s.size = ls.length := h.on.length h.ready.nodup

/-- `prepare` fails unless every variable has an index. -/
theorem prepare_ok' {s : Problem} (h : p.Ready ls) (hs : prepare p = .ok s) : s.Ok ls ∧ s.model = p := by
  obtain ⟨s', h1, h2⟩ := prepare_ok h
  rw [h1] at hs
  cases hs
  exact h2

/-- The energy of the annealing problem and of the physical model. -/
theorem Problem.Ok.energy {s : Problem} (h : s.Ok ls) (σ : Assign) :
    s.model.energy (match s.model.mtype.vtype with | .spin => σ | .binary => σ.toBinary) =
      - s.bqm.energy σ + s.original.offset * 2 := by
  have key : ∀ τ : Assign, s.model.energy τ = - s.original.energy τ + s.original.offset * 2 := by
    intro τ
    rw [h.original]
    simp only [Physical.energy, Bqm.energy, Physical.toBqm, List.map_map, Function.comp_def, one_mul]
    ring
  rw [key, h.bqm]
  cases ht : s.model.mtype.vtype with
  | spin => simp
  | binary =>
    simp only [reduceCtorEq, if_false]
    rw [Bqm.toSpin_energy]
    rw [h.original]
    exact h.ready.wf 1

end Sawatabi
