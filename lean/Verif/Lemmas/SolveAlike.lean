import Verif.Props.Equality
import Verif.Props.PhysicalCalls

/-!
# Lemmas: the annealing does not depend on the order of dictionaries
-/

namespace Sawatabi

variable {p q : Physical} {b c : Bqm} {s t : Problem} {ls : List String}

/-! ## Loops over lists in another order -/

theorem mapM_perm {α β : Type} {f : α → Except Err β} {e : Err} (hf : ∀ a x, f a = .error x → x = e) {l l' : List α}
    (h : l.Perm l') : (l.mapM f = .error e ∧ l'.mapM f = .error e) ∨ ∃ r r', l.mapM f = .ok r ∧ l'.mapM f = .ok r' ∧ r.Perm r' := by
  have hd : ∀ a, f a = .error e ∨ ∃ b, f a = .ok b := by
    intro a
    cases h : f a with
    | error x => exact .inl (by rw [hf a x h])
    | ok b => exact .inr ⟨b, rfl⟩
  induction h with
  | nil => exact .inr ⟨[], [], rfl, rfl, .nil⟩
  | cons a _ ih =>
    rcases hd a with h | ⟨b, h⟩
    · exact .inl ⟨by rw [List.mapM_cons, h]; rfl, by rw [List.mapM_cons, h]; rfl⟩
    · rcases ih with ⟨h1, h2⟩ | ⟨r, r', h1, h2, h3⟩
      · exact .inl ⟨by rw [List.mapM_cons, h, h1]; rfl, by rw [List.mapM_cons, h, h2]; rfl⟩
      · exact .inr ⟨b :: r, b :: r', by rw [List.mapM_cons, h, h1]; rfl, by rw [List.mapM_cons, h, h2]; rfl, h3.cons b⟩
  | swap a a' l =>
    simp only [List.mapM_cons]
    rcases hd a with h | ⟨b, h⟩ <;> rcases hd a' with h' | ⟨b', h'⟩ <;> rw [h, h']
    · exact .inl ⟨rfl, rfl⟩
    · exact .inl ⟨rfl, rfl⟩
    · exact .inl ⟨rfl, rfl⟩
    · cases hl : l.mapM f with
      | error x =>
        have : x = e := by
          have key : ∀ l : List α, ∀ x, l.mapM f = .error x → x = e := by
            intro l
            induction l with
            | nil => intro x h; cases h
            | cons a l ih =>
              intro x h
              rw [List.mapM_cons] at h
              rcases hd a with h' | ⟨b, h'⟩ <;> rw [h'] at h
              · cases h; rfl
              · cases hl : l.mapM f with
                | error y => rw [hl] at h; cases h; exact ih _ hl
                | ok r => rw [hl] at h; cases h
          exact key l x hl
        subst this
        exact .inl ⟨rfl, rfl⟩
      | ok r => exact .inr ⟨_, _, rfl, rfl, .swap _ _ _⟩
  | trans _ _ ih1 ih2 =>
    rcases ih1 with ⟨h1, h2⟩ | ⟨r, r', h1, h2, h3⟩ <;> rcases ih2 with ⟨h4, h5⟩ | ⟨u, u', h4, h5, h6⟩
    · exact .inl ⟨h1, h5⟩
    · rw [h2] at h4; cases h4
    · rw [h2] at h4; cases h4
    · rw [h2] at h4
      cases h4
      exact .inr ⟨r, u', h1, h5, h3.trans h6⟩

theorem value_error {st : Sample} {v : String} {e : Err} (h : st.value v = .error e) : e = .keyError := by
  unfold Sample.value at h
  split at h <;> cases h
  rfl

/-- The loop of `calc_energy_diff`. -/
theorem diff_fold (x : List ℤ) (k d : ℚ) (l : List (Nat × ℚ)) :
    l.foldlM (fun d kv => do
      let xj ← listGet x kv.1
      return d + k * (xj : ℚ) * kv.2) d =
    (l.mapM (m := Except Err) fun kv : Nat × ℚ => do
      let xj ← listGet x kv.1
      return k * (xj : ℚ) * kv.2).map fun r : List ℚ => d + r.sum := by
  induction l generalizing d with
  | nil => simp [Except.pure_ok, Except.map]
  | cons kv l ih =>
    rw [List.foldlM_cons, List.mapM_cons]
    cases listGet x kv.1 with
    | error e => rfl
    | ok xj =>
      rw [Except.bind_ok, Except.bind_ok]
      change List.foldlM _ (d + k * (xj : ℚ) * kv.2) l = _
      rw [ih]
      cases l.mapM (m := Except Err) fun kv : Nat × ℚ => do
          let xj ← listGet x kv.1
          return k * (xj : ℚ) * kv.2 with
      | error e => rfl
      | ok r =>
        change Except.ok (d + k * (xj : ℚ) * kv.2 + r.sum) = Except.ok (d + (k * (xj : ℚ) * kv.2 :: r).sum)
        rw [List.sum_cons, add_assoc]

/-! ## Models for dimod -/

/-- The same model up to the order of its dictionaries. -/
structure Bqm.Alike (b c : Bqm) : Prop where
  vartype : b.vartype = c.vartype
  linear : b.linear.Perm c.linear
  quad : b.quad.Perm c.quad
  offset : b.offset = c.offset

theorem Physical.Alike.bqm (h : p.Alike q) (x : ℚ) : (p.toBqm x).Alike (q.toBqm x) :=
  ⟨congrArg MType.vtype h.mtype, h.linear.map _, h.quad.map _, h.offset⟩

theorem Bqm.Alike.variables (h : b.Alike c) : b.variables.Perm c.variables := by
  refine (List.perm_ext_iff_of_nodup b.variables_nodup c.variables_nodup).mpr fun v => ?_
  have hk : ∀ {κ ν : Type} {d e : List (κ × ν)}, d.Perm e → ∀ k, k ∈ dkeys d ↔ k ∈ dkeys e :=
    fun h k => (h.map Prod.fst).mem_iff
  rw [Bqm.mem_variables, Bqm.mem_variables, hk h.linear]
  refine or_congr Iff.rfl ?_
  constructor
  · rintro ⟨k, h1, h2⟩; exact ⟨k, (hk h.quad k).mp h1, h2⟩
  · rintro ⟨k, h1, h2⟩; exact ⟨k, (hk h.quad k).mpr h1, h2⟩

theorem Bqm.Alike.bias (h : b.Alike c) (hw : b.Wf) (v : String) : b.bias v = c.bias v := by
  unfold Bqm.bias
  rw [dget_perm h.linear hw.linear]

theorem Bqm.Alike.neighbours (h : b.Alike c) (v : String) : (b.neighbours v).Perm (c.neighbours v) :=
  h.quad.filterMap _

theorem Bqm.Alike.toSpin (h : b.Alike c) (hw : b.Wf) : b.toSpin.Alike c.toSpin := by
  have hb : b.bias = c.bias := funext (h.bias hw)
  refine ⟨rfl, ?_, h.quad.map _, ?_⟩
  · have : (fun v => (v, b.bias v / 2 + ((b.neighbours v).map (·.2)).sum / 4)) =
        fun v => (v, c.bias v / 2 + ((c.neighbours v).map (·.2)).sum / 4) := by
      funext v
      rw [hb, ((h.neighbours v).map _).sum_eq]
    unfold Bqm.toSpin
    simp only
    rw [this]
    exact h.variables.map _
  · unfold Bqm.toSpin
    simp only
    rw [h.offset, hb, (h.variables.map _).sum_eq, (h.quad.map _).sum_eq]

theorem Bqm.Alike.sampleEnergy (h : b.Alike c) (hw : b.Wf) (st : Sample) : b.sampleEnergy st = c.sampleEnergy st := by
  have hb : b.bias = c.bias := funext (h.bias hw)
  unfold Bqm.sampleEnergy
  rw [hb, h.offset]
  have e1 := mapM_perm (e := .keyError) (f := fun v => do
    let a ← st.value v
    return c.bias v * (a : ℚ)) (fun v x hx => by
      cases hv : st.value v with
      | error y => rw [hv] at hx; cases hx; exact value_error hv
      | ok a => rw [hv] at hx; cases hx) h.variables
  have e2 := mapM_perm (e := .keyError) (f := fun kv : (String × String) × ℚ => do
    let x ← st.value kv.1.1
    let y ← st.value kv.1.2
    return kv.2 * ((x : ℚ) * (y : ℚ))) (fun kv x hx => by
      cases hv : st.value kv.1.1 with
      | error y => rw [hv] at hx; cases hx; exact value_error hv
      | ok a =>
        rw [hv] at hx
        cases hv' : st.value kv.1.2 with
        | error y => rw [hv'] at hx; cases hx; exact value_error hv'
        | ok a => rw [hv'] at hx; cases hx) h.quad
  rcases e1 with ⟨h1, h2⟩ | ⟨r, r', h1, h2, h3⟩
  · rw [h1, h2]; rfl
  · rw [h1, h2, Except.bind_ok, Except.bind_ok]
    rcases e2 with ⟨h4, h5⟩ | ⟨u, u', h4, h5, h6⟩
    · rw [h4, h5]; rfl
    · rw [h4, h5, Except.bind_ok, Except.bind_ok, h3.sum_eq, h6.sum_eq]

/-! ## Prepared problems -/

/-- Two problems that differ in the order of dictionaries. -/
structure Problem.Alike (s t : Problem) (ls : List String) : Prop where
  left : s.model.Ready ls
  right : t.model.Ready ls
  on : s.bqm.On ls
  vartype : s.original.vartype = t.original.vartype
  offset : s.original.offset = t.original.offset
  bqm : s.bqm.Alike t.bqm
  wf : s.bqm.Wf
  linear : s.linear = t.linear
  length : s.adj.length = t.adj.length
  adj : ∀ (i : Nat) a, s.adj[i]? = some a → ∃ a', t.adj[i]? = some a' ∧ a.Perm a'

theorem prepare_alike (hp : p.Ready ls) (hq : q.Ready ls) (h : p.Alike q) :
    ∃ s t, prepare p = .ok s ∧ prepare q = .ok t ∧ s.Alike t ls := by
  have key : ∀ b c : Bqm, b.Alike c → b.Wf → c.Wf → b.On ls → c.On ls → ∃ l a a', linearArray p b = .ok l ∧
      linearArray q c = .ok l ∧ adjArray p b = .ok a ∧ adjArray q c = .ok a' ∧ a.length = a'.length ∧
      ∀ (i : Nat) x, a[i]? = some x → ∃ y, a'[i]? = some y ∧ x.Perm y := by
    intro b c hbc hbw hcw hb hc
    obtain ⟨l, h1, h2, h3⟩ := linearArray_ok hp hb
    obtain ⟨l', h1', h2', h3'⟩ := linearArray_ok hq hc
    obtain ⟨a, h4, h5, h6⟩ := adjArray_ok hp hbw hb
    obtain ⟨a', h4', h5', h6'⟩ := adjArray_ok hq hcw hc
    have hl : l = l' := by
      apply List.ext_getElem?
      intro i
      by_cases hi : i < ls.length
      · rw [h3 i _ (List.getElem?_eq_getElem hi), h3' i _ (List.getElem?_eq_getElem hi), hbc.bias hbw]
      · rw [List.getElem?_eq_none (by omega), List.getElem?_eq_none (by omega)]
    subst hl
    refine ⟨l, a, a', h1, h1', h4, h4', h5.trans h5'.symm, fun i x hx => ?_⟩
    have hi : i < ls.length := by
      have := (List.getElem?_eq_some_iff.mp hx).1
      omega
    have e1 := h6 i _ (List.getElem?_eq_getElem hi)
    rw [hx] at e1
    cases e1
    exact ⟨_, h6' i _ (List.getElem?_eq_getElem hi), (hbc.neighbours _).map _⟩
  have ha := h.bqm 1
  unfold prepare
  by_cases hv : (p.toBqm 1).vartype ≠ .spin
  · have hv' : (q.toBqm 1).vartype ≠ .spin := ha.vartype ▸ hv
    simp only [if_pos hv, if_pos hv']
    have o1 : (p.toBqm 1).toSpin.On ls := fun l => (Bqm.toSpin_mem _ l).trans (hp.on 1 l)
    have o2 : (q.toBqm 1).toSpin.On ls := fun l => (Bqm.toSpin_mem _ l).trans (hq.on 1 l)
    obtain ⟨l, a, a', h1, h2, h3, h4, h5, h6⟩ := key _ _ (ha.toSpin (hp.wf 1)) (Bqm.toSpin_wf (hp.wf 1)) (Bqm.toSpin_wf (hq.wf 1)) o1 o2
    rw [h1, h2, h3, h4]
    exact ⟨_, _, rfl, rfl, hp, hq, o1, ha.vartype, ha.offset, ha.toSpin (hp.wf 1), Bqm.toSpin_wf (hp.wf 1), rfl, h5, h6⟩
  · have hv' : ¬ (q.toBqm 1).vartype ≠ .spin := ha.vartype ▸ hv
    simp only [if_neg hv, if_neg hv']
    obtain ⟨l, a, a', h1, h2, h3, h4, h5, h6⟩ := key _ _ ha (hp.wf 1) (hq.wf 1) (hp.on 1) (hq.on 1)
    rw [h1, h2, h3, h4]
    exact ⟨_, _, rfl, rfl, hp, hq, hp.on 1, ha.vartype, ha.offset, ha, hp.wf 1, rfl, h5, h6⟩

theorem Problem.Alike.size (h : s.Alike t ls) : s.size = t.size := h.bqm.variables.length_eq

theorem listGet_error {α : Type} {l : List α} {i : Nat} {e : Err} (h : listGet l i = .error e) : e = .indexError := by
  unfold listGet at h
  split at h <;> cases h
  rfl

theorem Problem.Alike.calcDiff (h : s.Alike t ls) (i : Nat) (x : List ℤ) : calcDiff s i x = Sawatabi.calcDiff t i x := by
  unfold Sawatabi.calcDiff
  cases hx : listGet x i with
  | error e => rfl
  | ok xi =>
    rw [h.linear, Except.bind_ok, Except.bind_ok]
    cases listGet t.linear i with
    | error e => rfl
    | ok l =>
      rw [Except.bind_ok, Except.bind_ok]
      cases ha : s.adj[i]? with
      | none =>
        have : t.adj[i]? = none := by
          rw [List.getElem?_eq_none_iff] at ha ⊢
          rw [← h.length]; exact ha
        unfold listGet
        rw [ha, this]
      | some a =>
        obtain ⟨a', h1, h2⟩ := h.adj i a ha
        have e1 : listGet s.adj i = .ok a := listGet_ok.mpr ha
        have e2 : listGet t.adj i = .ok a' := listGet_ok.mpr h1
        rw [e1, e2, Except.bind_ok, Except.bind_ok, diff_fold, diff_fold]
        rcases mapM_perm (e := .indexError) (f := fun kv : Nat × ℚ => do
            let xj ← listGet x kv.1
            return (xi : ℚ) * (xj : ℚ) * kv.2) (fun kv e he => by
              cases hv : listGet x kv.1 with
              | error y => rw [hv] at he; cases he; exact listGet_error hv
              | ok a => rw [hv] at he; cases he) h2 with ⟨h3, h4⟩ | ⟨r, r', h3, h4, h5⟩
        · rw [h3, h4]
        · rw [h3, h4]
          simp only [Except.map, Except.bind_ok]
          rw [h5.sum_eq]

theorem Problem.Alike.innerStep (h : s.Alike t ls) (exp : ℚ → Except Err ℚ) (rands : List ℚ) (T : ℚ) :
    innerStep exp s rands T = Sawatabi.innerStep exp t rands T := by
  funext u i
  unfold Sawatabi.innerStep
  rw [h.calcDiff]

theorem Problem.Alike.sweepStep {γ : Type} (h : s.Alike t ls) (rng : Rng γ) (exp : ℚ → Except Err ℚ) (o : Options) (rands : List ℚ) :
    sweepStep rng exp s o rands = Sawatabi.sweepStep rng exp t o rands := by
  funext u k
  unfold Sawatabi.sweepStep
  rw [h.innerStep, h.size]

theorem Problem.Alike.decode (h : s.Alike t ls) : decode s.model = Sawatabi.decode t.model := by
  funext x
  unfold Sawatabi.decode
  rw [h.left.indexToLabel, h.right.indexToLabel]

theorem Problem.Alike.startState {γ : Type} (h : s.Alike t ls) (o : Options) (x : List ℤ) (g : γ) :
    startState s o x g = Sawatabi.startState t o x g := by
  unfold Sawatabi.startState
  rw [h.decode, h.bqm.sampleEnergy h.wf]

/-- The initial spins of a prepared problem. -/
theorem spinsOf_cases (hr : s.model.Ready ls) (ho : s.bqm.On ls) (st : Sample) :
    (∃ r, spinsOf s st = .ok r ∧ r.length = ls.length ∧ ∀ (i : Nat) v, ls[i]? = some v → ∃ a, st.value v = .ok a ∧ r[i]? = some a) ∨
      ((∃ v ∈ ls, st.value v = .error .keyError) ∧ spinsOf s st = .error .keyError) := by
  have hn : s.size = ls.length := ho.length hr.nodup
  by_cases hall : ∀ v ∈ ls, ∃ a, st.value v = .ok a
  · refine .inl ?_
    obtain ⟨r, h1, h2, h3⟩ := fill_array hr st.value (fun v => (dget st v).getD 0) s.bqm.variables (fun v hv => by
      obtain ⟨a, ha⟩ := hall v ((ho v).mp hv)
      unfold Sample.value at ha ⊢
      cases hg : dget st v with
      | none => rw [hg] at ha; cases ha
      | some b => rfl) (fun v hv => (ho v).mp hv) (List.replicate s.size 1) (by rw [List.length_replicate, hn])
    refine ⟨r, h1, h2, fun i v hi => ?_⟩
    have hv := List.mem_of_getElem? hi
    obtain ⟨a, ha⟩ := hall v hv
    refine ⟨a, ha, ?_⟩
    rw [h3 i v hi, if_pos ((ho v).mpr hv)]
    unfold Sample.value at ha
    cases hg : dget st v with
    | none => rw [hg] at ha; cases ha
    | some b => rw [hg] at ha; cases ha; rfl
  · push Not at hall
    obtain ⟨v, hv, hbad⟩ := hall
    have hbad : st.value v = .error .keyError := by
      cases h : st.value v with
      | ok a => exact absurd h (hbad a)
      | error e => rw [value_error h]
    refine .inr ⟨⟨v, hv, hbad⟩, ?_⟩
    unfold spinsOf
    have key : ∀ (vs : List String) (x : List ℤ), (∀ w ∈ vs, w ∈ ls) → v ∈ vs → x.length = ls.length →
        vs.foldlM (fun x v => do
          let i ← s.model.index v
          let a ← st.value v
          listSet x i a) x = Except.error .keyError := by
      intro vs
      induction vs with
      | nil => intro x _ h; cases h
      | cons w vs ih =>
        intro x hsub hm hx
        have hw := hsub w List.mem_cons_self
        rw [List.foldlM_cons, hr.index_mem hw, Except.bind_ok]
        cases hvw : st.value w with
        | error e => rw [value_error hvw]; rfl
        | ok a =>
          rw [Except.bind_ok, listSet_ok.mpr ⟨by rw [hx]; exact List.idxOf_lt_length_of_mem hw, rfl⟩, Except.bind_ok]
          refine ih _ (fun w h => hsub w (List.mem_cons_of_mem _ h)) ?_ (by rw [List.length_set, hx])
          rcases List.mem_cons.mp hm with rfl | hm
          · rw [hbad] at hvw; cases hvw
          · exact hm
    exact key _ _ (fun w hw => (ho w).mp hw) ((ho v).mpr hv) (by rw [List.length_replicate, hn])

theorem Problem.Alike.spinsOf (h : s.Alike t ls) (st : Sample) : spinsOf s st = Sawatabi.spinsOf t st := by
  have ho : t.bqm.On ls := fun v => (h.bqm.variables.mem_iff (a := v)).symm.trans (h.on v)
  rcases spinsOf_cases h.left h.on st with ⟨r, h1, h2, h3⟩ | ⟨⟨v, hv, hbad⟩, h1⟩ <;>
    rcases spinsOf_cases h.right ho st with ⟨r', h1', h2', h3'⟩ | ⟨⟨v', hv', hbad'⟩, h1'⟩
  · rw [h1, h1']
    congr 1
    apply List.ext_getElem?
    intro i
    by_cases hi : i < ls.length
    · obtain ⟨a, e1, e2⟩ := h3 i _ (List.getElem?_eq_getElem hi)
      obtain ⟨a', e1', e2'⟩ := h3' i _ (List.getElem?_eq_getElem hi)
      rw [e1] at e1'
      cases e1'
      rw [e2, e2']
    · rw [List.getElem?_eq_none (by omega), List.getElem?_eq_none (by omega)]
  · obtain ⟨i, hi⟩ := List.getElem?_of_mem hv'
    obtain ⟨a, e, _⟩ := h3 i v' hi
    rw [hbad'] at e
    cases e
  · obtain ⟨i, hi⟩ := List.getElem?_of_mem hv
    obtain ⟨a, e, _⟩ := h3' i v hi
    rw [hbad] at e
    cases e
  · rw [h1, h1']

theorem Problem.Alike.annealing {γ : Type} (h : s.Alike t ls) (rng : Rng γ) (exp : ℚ → Except Err ℚ) (o : Options)
    (st : Option Sample) (g : γ) : annealing rng exp s o st g = Sawatabi.annealing rng exp t o st g := by
  have hi : initialSpins rng s st g = initialSpins rng t st g := by
    unfold initialSpins
    rw [h.size]
    cases st with
    | none => rfl
    | some st => simp only [h.spinsOf]
  unfold Sawatabi.annealing
  rw [hi, h.size, h.decode, h.offset]
  simp only [h.startState, h.sweepStep]

theorem Problem.Alike.reads {γ : Type} (h : s.Alike t ls) (rng : Rng γ) (exp : ℚ → Except Err ℚ) (o : Options)
    (init : Option (List Sample)) (rs : List Nat) (g : γ) :
    reads rng exp s o init rs g = Sawatabi.reads rng exp t o init rs g := by
  induction rs generalizing g with
  | nil => rfl
  | cons r rs ih => simp only [Sawatabi.reads, h.annealing, ih]

/-- Physical models that differ in the order of their dictionaries are solved alike. -/
theorem solve_alike {γ : Type} {rng : Rng γ} {seeded : Nat → γ} {fresh : γ} {exp : ℚ → Except Err ℚ} {numReads : Int}
    {o : Options} {seed : Option Int} (hp : p.Ready ls) (hq : q.Ready ls) (h : p.Alike q) (init : Option (List Sample)) :
    (solve rng seeded fresh exp p numReads o seed).run init = (solve rng seeded fresh exp q numReads o seed).run init := by
  obtain ⟨s, t, h1, h2, h3⟩ := prepare_alike hp hq h
  have he : p.isEmptyModel = q.isEmptyModel := by
    have hk : ∀ {κ ν : Type} {d e : List (κ × ν)}, d.Perm e → d.isEmpty = e.isEmpty := fun h => by
      rw [Bool.eq_iff_iff, List.isEmpty_iff_length_eq_zero, List.isEmpty_iff_length_eq_zero, h.length_eq]
    unfold Physical.isEmptyModel
    rw [hk h.linear, hk h.quad]
  have hc : checkArgs p numReads o init = checkArgs q numReads o init := by
    unfold checkArgs
    rw [he]
  have hi : converted p init = converted q init := by
    unfold converted
    rw [h.mtype]
  rw [solve_run, solve_run, hc, hi, h1, h2]
  simp only [Except.bind_ok, h3.reads, h3.vartype]

end Sawatabi
