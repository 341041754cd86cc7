import Verif.Model.World
import Verif.Props.Registry
import Verif.Spec.Acceptance
import Verif.Lemmas.Congruence

/-!
# Lemmas about worlds of models and constraint objects
-/

namespace Sawatabi

/-! ## References -/

/-- The references of a model are sound: distinct labels, each referring to an object with that label. -/
structure RefsOk (heap : List Constraint) (refs : List (String × Nat)) : Prop where
  keys : (dkeys refs).Nodup
  objects : ∀ p ∈ refs, ∃ c, heap[p.2]? = some c ∧ c.label = p.1

/-- Objects may be added and changed, but keep their labels. -/
def HeapLe (heap heap' : List Constraint) : Prop :=
  ∀ (a : Nat) (c : Constraint), heap[a]? = some c → ∃ c' : Constraint, heap'[a]? = some c' ∧ c'.label = c.label

theorem HeapLe.refl (heap : List Constraint) : HeapLe heap heap := fun _ c h => ⟨c, h, rfl⟩

theorem HeapLe.trans {a b c : List Constraint} (h₁ : HeapLe a b) (h₂ : HeapLe b c) : HeapLe a c := by
  intro i x hx
  obtain ⟨y, hy, hl⟩ := h₁ i x hx
  obtain ⟨z, hz, hl'⟩ := h₂ i y hy
  exact ⟨z, hz, hl'.trans hl⟩

theorem HeapLe.append (heap : List Constraint) (c : Constraint) : HeapLe heap (heap ++ [c]) := by
  intro a x hx
  exact ⟨x, by rw [List.getElem?_append_left (List.getElem?_eq_some_iff.mp hx).1]; exact hx, rfl⟩

theorem HeapLe.set {heap : List Constraint} {a : Nat} {c c' : Constraint} (h : heap[a]? = some c) (hl : c'.label = c.label) :
    HeapLe heap (heap.set a c') := by
  intro i x hx
  by_cases hi : i = a
  · subst hi
    rw [h] at hx
    injection hx with hx
    subst hx
    exact ⟨c', by rw [List.getElem?_set_self (List.getElem?_eq_some_iff.mp h).1], hl⟩
  · exact ⟨x, by rw [List.getElem?_set_ne (Ne.symm hi)]; exact hx, rfl⟩

theorem RefsOk.mono {heap heap' : List Constraint} {refs : List (String × Nat)} (h : RefsOk heap refs)
    (hl : HeapLe heap heap') : RefsOk heap' refs := by
  refine ⟨h.keys, fun p hp => ?_⟩
  obtain ⟨c, hc, hcl⟩ := h.objects p hp
  obtain ⟨c', hc', hcl'⟩ := hl _ _ hc
  exact ⟨c', hc', hcl'.trans hcl⟩

theorem RefsOk.tail {heap : List Constraint} {p : String × Nat} {refs : List (String × Nat)} (h : RefsOk heap (p :: refs)) :
    RefsOk heap refs := ⟨(List.nodup_cons.mp h.keys).2, fun q hq => h.objects q (List.mem_cons_of_mem _ hq)⟩

theorem deref_append (heap : List Constraint) (a b : List (String × Nat)) :
    deref heap (a ++ b) = deref heap a ++ deref heap b := List.filterMap_append

theorem deref_cons {heap : List Constraint} {p : String × Nat} {c : Constraint} (h : heap[p.2]? = some c)
    (refs : List (String × Nat)) : deref heap (p :: refs) = (p.1, c) :: deref heap refs := by
  unfold deref
  rw [List.filterMap_cons, h]
  rfl

theorem dkeys_deref {heap : List Constraint} {refs : List (String × Nat)} (h : RefsOk heap refs) :
    dkeys (deref heap refs) = dkeys refs := by
  induction refs with
  | nil => rfl
  | cons p refs ih =>
    obtain ⟨c, hc, _⟩ := h.objects p List.mem_cons_self
    rw [deref_cons hc]
    exact congrArg (p.1 :: ·) (ih h.tail)

theorem dget_deref {heap : List Constraint} {refs : List (String × Nat)} (h : RefsOk heap refs) (l : String) :
    dget (deref heap refs) l = (dget refs l).bind fun a => heap[a]? := by
  induction refs with
  | nil => rfl
  | cons p refs ih =>
    obtain ⟨c, hc, _⟩ := h.objects p List.mem_cons_self
    rw [deref_cons hc]
    simp only [dget]
    by_cases hp : p.1 = l
    · rw [if_pos hp, if_pos hp]
      exact hc.symm
    · rw [if_neg hp, if_neg hp]
      exact ih h.tail

/-- Two references of a model do not refer to the same object. -/
theorem RefsOk.inj {heap : List Constraint} {refs : List (String × Nat)} (h : RefsOk heap refs) {p q : String × Nat}
    (hp : p ∈ refs) (hq : q ∈ refs) (he : p.2 = q.2) : p = q := by
  obtain ⟨c, hc, hl⟩ := h.objects p hp
  obtain ⟨c', hc', hl'⟩ := h.objects q hq
  rw [he, hc'] at hc
  injection hc with hc
  refine Prod.ext ?_ he
  rw [← hl, ← hl', hc]

/-- Objects that a model does not refer to play no role. -/
theorem deref_congr {heap heap' : List Constraint} {refs : List (String × Nat)}
    (h : ∀ p ∈ refs, heap'[p.2]? = heap[p.2]?) : deref heap' refs = deref heap refs := by
  induction refs with
  | nil => rfl
  | cons p refs ih =>
    unfold deref
    rw [List.filterMap_cons, List.filterMap_cons, h p List.mem_cons_self]
    have := ih fun q hq => h q (List.mem_cons_of_mem _ hq)
    unfold deref at this
    rw [this]

theorem deref_set {heap : List Constraint} {refs : List (String × Nat)} (h : RefsOk heap refs) {l : String} {a : Nat}
    (hg : dget refs l = some a) (c' : Constraint) :
    deref (heap.set a c') refs = dset (deref heap refs) l c' := by
  have hmem := dget_mem hg
  obtain ⟨c₀, hc₀, _⟩ := h.objects _ hmem
  have hlt : a < heap.length := (List.getElem?_eq_some_iff.mp hc₀).1
  induction refs with
  | nil => cases hg
  | cons p refs ih =>
    obtain ⟨c, hc, _⟩ := h.objects p List.mem_cons_self
    rw [deref_cons hc]
    simp only [dget] at hg
    by_cases hp : p.1 = l
    · rw [if_pos hp] at hg
      injection hg with hg
      have hset : (heap.set a c')[p.2]? = some c' := by rw [hg, List.getElem?_set_self hlt]
      rw [deref_cons hset]
      simp only [dset, if_pos hp]
      congr 1
      apply deref_congr
      intro q hq
      rw [List.getElem?_set_ne]
      intro he
      have := h.inj List.mem_cons_self (List.mem_cons_of_mem _ hq) (hg.trans he)
      rw [this] at h
      exact (List.nodup_cons.mp h.keys).1 (List.mem_map.mpr ⟨q, hq, rfl⟩)
    · rw [if_neg hp] at hg
      have hne : a ≠ p.2 := by
        intro he
        have := h.inj List.mem_cons_self (List.mem_cons_of_mem _ (dget_mem hg)) he.symm
        exact hp (by rw [this])
      have hset : (heap.set a c')[p.2]? = some c := by rw [List.getElem?_set_ne hne]; exact hc
      rw [deref_cons hset]
      simp only [dset, if_neg hp]
      rw [ih h.tail hg (dget_mem hg)]

theorem deref_dset {heap : List Constraint} {refs : List (String × Nat)} (h : RefsOk heap refs) {l : String} {a : Nat}
    {c : Constraint} (hc : heap[a]? = some c) : deref heap (dset refs l a) = dset (deref heap refs) l c := by
  induction refs with
  | nil =>
    show deref heap [(l, a)] = _
    rw [deref_cons (p := (l, a)) hc]
    rfl
  | cons p refs ih =>
    obtain ⟨c₁, hc₁, _⟩ := h.objects p List.mem_cons_self
    rw [deref_cons hc₁]
    simp only [dset]
    by_cases hp : p.1 = l
    · rw [if_pos hp, if_pos hp, deref_cons (p := (p.1, a)) hc]
    · rw [if_neg hp, if_neg hp, deref_cons (p := (p.1, p.2)) hc₁, ih h.tail]

theorem deref_dpop {heap : List Constraint} {refs : List (String × Nat)} (h : RefsOk heap refs) (l : String) :
    deref heap (dpop refs l) = dpop (deref heap refs) l := by
  induction refs with
  | nil => rfl
  | cons p refs ih =>
    obtain ⟨c₁, hc₁, _⟩ := h.objects p List.mem_cons_self
    rw [deref_cons hc₁]
    simp only [dpop]
    by_cases hp : p.1 = l
    · rw [if_pos hp, if_pos hp]
    · rw [if_neg hp, if_neg hp, deref_cons (p := (p.1, p.2)) hc₁, ih h.tail]

theorem RefsOk.dset {heap : List Constraint} {refs : List (String × Nat)} (h : RefsOk heap refs) {a : Nat}
    {c : Constraint} (hc : heap[a]? = some c) : RefsOk heap (dset refs c.label a) := by
  refine ⟨nodup_dset a h.keys, fun p hp => ?_⟩
  rcases mem_dset hp with rfl | hp
  · exact ⟨c, hc, rfl⟩
  · exact h.objects p hp

theorem RefsOk.dpop {heap : List Constraint} {refs : List (String × Nat)} (h : RefsOk heap refs) (l : String) :
    RefsOk heap (dpop refs l) :=
  ⟨(dkeys_dpop_sublist _ _).nodup h.keys, fun p hp => h.objects p (mem_of_dpop hp)⟩

theorem dupdate_append {κ ν : Type} [DecidableEq κ] {d e : List (κ × ν)} (he : (dkeys e).Nodup)
    (h : ∀ k ∈ dkeys d, k ∉ dkeys e) : dupdate d e = d ++ e := by
  unfold dupdate
  induction e generalizing d with
  | nil => simp
  | cons p e ih =>
    rw [List.foldl_cons, dset_of_not_mem]
    · rw [ih (List.nodup_cons.mp he).2]
      · simp
      · intro k hk
        simp only [dkeys, List.map_append, List.mem_append, List.map_cons, List.map_nil, List.mem_singleton] at hk
        rcases hk with hk | hk
        · exact fun hc => h k hk (List.mem_cons_of_mem _ hc)
        · subst hk
          exact (List.nodup_cons.mp he).1
    · exact fun hc => h _ hc List.mem_cons_self

theorem RefsOk.append {heap : List Constraint} {a b : List (String × Nat)} (ha : RefsOk heap a) (hb : RefsOk heap b)
    (h : ∀ k ∈ dkeys a, k ∉ dkeys b) : RefsOk heap (a ++ b) := by
  refine ⟨?_, fun p hp => ?_⟩
  · unfold dkeys
    rw [List.map_append, List.nodup_append]
    refine ⟨ha.keys, hb.keys, ?_⟩
    intro x hx y hy he
    subst he
    exact h x hx hy
  · rcases List.mem_append.mp hp with hp | hp
    · exact ha.objects p hp
    · exact hb.objects p hp

/-! ## Storing and reading models -/

variable {w : World} {i j k : Nat} {m m' : LModel}

theorem model_eq_some : w.model i = some m ↔ ∃ h, w.models[i]? = some h ∧ m = h.view w.heap := by
  unfold World.model
  rw [Option.map_eq_some_iff]
  constructor
  · rintro ⟨h, hh, rfl⟩; exact ⟨h, hh, rfl⟩
  · rintro ⟨h, hh, rfl⟩; exact ⟨h, hh, rfl⟩

theorem model_constraints (h : w.model i = some m) : m.constraints = deref w.heap (w.refs i) := by
  obtain ⟨hm, hh, rfl⟩ := model_eq_some.mp h
  unfold World.refs
  rw [hh]
  rfl

theorem put_heap : (w.put i m).heap = w.heap := rfl

theorem put_refs : (w.put i m).refs j = w.refs j := by
  unfold World.refs World.put
  simp only [List.getElem?_modify]
  cases w.models[j]? with
  | none => rfl
  | some h => by_cases hij : i = j <;> simp [hij]

theorem put_model_ne (h : j ≠ i) : (w.put i m).model j = w.model j := by
  unfold World.model World.put
  simp only [List.getElem?_modify, if_neg (Ne.symm h)]
  simp

theorem put_model (h : w.model i = some m) (hc : m'.constraints = m.constraints) : (w.put i m').model i = some m' := by
  have hr := model_constraints h
  obtain ⟨hm, hh, rfl⟩ := model_eq_some.mp h
  unfold World.model World.put
  simp only [List.getElem?_modify, hh, if_true, Option.map_eq_map, Option.map_some, Option.some.injEq]
  show ({ m' with constraints := deref w.heap hm.refs } : LModel) = m'
  have : m'.constraints = deref w.heap hm.refs := hc
  rw [← this]

theorem putRefs_heap {r : List (String × Nat)} : (w.putRefs i r).heap = w.heap := rfl

theorem putRefs_refs_ne {r : List (String × Nat)} (h : j ≠ i) : (w.putRefs i r).refs j = w.refs j := by
  unfold World.refs World.putRefs
  simp only [List.getElem?_modify, if_neg (Ne.symm h)]
  cases w.models[j]? <;> rfl

theorem putRefs_refs {r : List (String × Nat)} (h : w.model i = some m) : (w.putRefs i r).refs i = r := by
  obtain ⟨hm, hh, rfl⟩ := model_eq_some.mp h
  unfold World.refs World.putRefs
  simp [List.getElem?_modify, hh]

theorem putRefs_model_ne {r : List (String × Nat)} (h : j ≠ i) : (w.putRefs i r).model j = w.model j := by
  unfold World.model World.putRefs
  simp only [List.getElem?_modify, if_neg (Ne.symm h)]
  simp

theorem putRefs_model {r : List (String × Nat)} (h : w.model i = some m) :
    (w.putRefs i r).model i = some { m with constraints := deref w.heap r } := by
  obtain ⟨hm, hh, rfl⟩ := model_eq_some.mp h
  unfold World.model World.putRefs
  simp [List.getElem?_modify, hh, HModel.view]

/-- A change of objects changes the constraints of the models that refer to them. -/
theorem heap_model {heap : List Constraint} (h : w.model i = some m) :
    ({ w with heap := heap } : World).model i = some { m with constraints := deref heap (w.refs i) } := by
  obtain ⟨hm, hh, rfl⟩ := model_eq_some.mp h
  unfold World.model World.refs
  simp [hh, HModel.view]

theorem refs_nil (h : w.model i = none) : w.refs i = [] := by
  unfold World.model at h
  rw [Option.map_eq_none_iff] at h
  unfold World.refs
  rw [h]

/-! ## The invariant -/

/-- All references are sound. -/
def World.Ok (w : World) : Prop := ∀ i, RefsOk w.heap (w.refs i)

theorem refsOk_nil (heap : List Constraint) : RefsOk heap [] := ⟨List.nodup_nil, fun _ h => by cases h⟩

theorem World.Ok.put (h : w.Ok) : (w.put i m).Ok := by
  intro j
  rw [put_refs]
  exact h j

theorem World.Ok.heap {heap : List Constraint} (h : w.Ok) (hl : HeapLe w.heap heap) : ({ w with heap := heap } : World).Ok :=
  fun j => (h j).mono hl

theorem World.Ok.putRefs {r : List (String × Nat)} (h : w.Ok) (hr : RefsOk w.heap r) : (w.putRefs i r).Ok := by
  intro j
  by_cases hj : j = i
  · subst hj
    cases hm : w.model j with
    | some m => rw [putRefs_refs hm]; exact hr
    | none =>
      have : (w.putRefs j r).model j = none := by
        unfold World.model at hm ⊢
        rw [Option.map_eq_none_iff] at hm ⊢
        unfold World.putRefs
        simp [List.getElem?_modify, hm]
      rw [refs_nil this]
      exact refsOk_nil _
  · rw [putRefs_refs_ne hj]
    exact h j

/-! ## Calls on one model -/

/-- `x` does in the world what `y` does on the `i`-th model, and nothing else except that other models see changed objects. -/
structure Follows (i : Nat) (x : Py World Unit) (y : Py LModel Unit) (w : World) (m : LModel) : Prop where
  raised : (x.run w).raised = (y.run m).raised
  model : (x.run w).state.model i = some (y.run m).state
  ok : (x.run w).state.Ok
  heap : HeapLe w.heap (x.run w).state.heap
  others : ∀ j, j ≠ i → (x.run w).state.refs j = w.refs j ∧
    (x.run w).state.model j = (w.model j).map fun n => { n with constraints := deref (x.run w).state.heap (w.refs j) }

theorem Follows.bind {x x' : Py World Unit} {y y' : Py LModel Unit} (h : Follows i x y w m)
    (h' : ∀ w' m', x.run w = .ok ⟨⟩ w' → y.run m = .ok ⟨⟩ m' → w'.Ok → w'.model i = some m' → Follows i x' y' w' m') :
    Follows i (x >>= fun _ => x') (y >>= fun _ => y') w m := by
  obtain ⟨hr, hm, hok, hl, ho⟩ := h
  cases hx : x.run w with
  | error e w₁ =>
    cases hy : y.run m with
    | ok u m₁ => rw [hx, hy] at hr; cases hr
    | error e' m₁ =>
      have hx' : (x >>= fun _ => x').run w = .error e w₁ := by rw [Py.run_bind, hx]
      have hy' : (y >>= fun _ => y').run m = .error e' m₁ := by rw [Py.run_bind, hy]
      rw [hx, hy] at hr hm
      rw [hx] at hok hl ho
      constructor
      · rw [hx', hy']; exact hr
      · rw [hx', hy']; exact hm
      · rw [hx']; exact hok
      · rw [hx']; exact hl
      · rw [hx']; exact ho
  | ok u w₁ =>
    cases hy : y.run m with
    | error e' m₁ => rw [hx, hy] at hr; cases hr
    | ok u' m₁ =>
      rw [hx, hy] at hm
      rw [hx] at hok hl ho
      have h2 := h' w₁ m₁ hx hy hok hm
      have hx' : (x >>= fun _ => x').run w = x'.run w₁ := by rw [Py.run_bind, hx]
      have hy' : (y >>= fun _ => y').run m = y'.run m₁ := by rw [Py.run_bind, hy]
      constructor
      · rw [hx', hy']; exact h2.raised
      · rw [hx', hy']; exact h2.model
      · rw [hx']; exact h2.ok
      · rw [hx']; exact hl.trans h2.heap
      · rw [hx']
        intro j hj
        obtain ⟨hr₁, hm₁⟩ := ho j hj
        obtain ⟨hr₂, hm₂⟩ := h2.others j hj
        refine ⟨hr₂.trans hr₁, ?_⟩
        rw [hm₂]
        show Option.map _ ((Res.ok u w₁).state.model j) = _
        rw [hm₁, Option.map_map]
        have : w₁.refs j = w.refs j := hr₁
        rw [this]
        rfl

theorem Follows.congr {x x' : Py World Unit} {y y' : Py LModel Unit} (h : Follows i x y w m) (hx : x'.run w = x.run w)
    (hy : y'.run m = y.run m) : Follows i x' y' w m := by
  obtain ⟨h1, h2, h3, h4, h5⟩ := h
  constructor
  · rw [hx, hy]; exact h1
  · rw [hx, hy]; exact h2
  · rw [hx]; exact h3
  · rw [hx]; exact h4
  · rw [hx]; exact h5

theorem onModel_run {α : Type} {x : Py LModel α} (h : w.model i = some m) :
    (onModel i x).run w = match x.run m with
      | .ok a m' => .ok a (w.put i m')
      | .error e m' => .error e (w.put i m') := by
  unfold onModel
  simp only [h]
  cases x.run m <;> rfl

theorem model_same : w.model j =
    (w.model j).map fun n => { n with constraints := deref w.heap (w.refs j) } := by
  cases h : w.model j with
  | none => rfl
  | some n =>
    have := model_constraints h
    simp only [Option.map_some, Option.some.injEq]
    rw [← this]

theorem follows_onModel {y : Py LModel Unit} (hw : w.Ok) (h : w.model i = some m)
    (hc : (y.run m).state.constraints = m.constraints) : Follows i (onModel i y) y w m := by
  have hrun := onModel_run (x := y) h
  have hst : ((onModel i y).run w).state = w.put i (y.run m).state := by
    rw [hrun]
    cases y.run m <;> rfl
  constructor
  · rw [hrun]
    cases y.run m <;> rfl
  · rw [hst]
    exact put_model h hc
  · rw [hst]
    exact hw.put
  · rw [hst]
    exact HeapLe.refl _
  · intro j hj
    rw [hst, put_refs, put_model_ne hj]
    exact ⟨rfl, model_same⟩

theorem follows_pure (hw : w.Ok) (h : w.model i = some m) : Follows i (pure ⟨⟩) (pure ⟨⟩) w m :=
  ⟨rfl, h, hw, HeapLe.refl _, fun _ _ => ⟨rfl, model_same⟩⟩

theorem follows_throw (e : Err) (hw : w.Ok) (h : w.model i = some m) : Follows i (throw e) (throw e) w m :=
  ⟨rfl, h, hw, HeapLe.refl _, fun _ _ => ⟨rfl, model_same⟩⟩

theorem follows_forM {α : Type} {f : α → Py World Unit} {g : α → Py LModel Unit} (l : List α)
    (hf : ∀ a w m, w.Ok → w.model i = some m → Follows i (f a) (g a) w m) (hw : w.Ok) (h : w.model i = some m) :
    Follows i (l.forM f) (l.forM g) w m := by
  induction l generalizing w m with
  | nil => exact follows_pure hw h
  | cons a l ih => exact (hf a w m hw h).bind fun w' m' _ _ hw' hm' => ih hw' hm'

theorem removeVariable_label {v : PVar} {c c' : Constraint} (h : c.removeVariable v = .ok c') : c'.label = c.label := by
  cases c with
  | nHot l s vs n =>
    simp only [Constraint.removeVariable] at h
    split at h
    · cases h; rfl
    · cases h
  | zeroOrOneHot l s vs =>
    simp only [Constraint.removeVariable] at h
    split at h
    · cases h; rfl
    · cases h
  | equality l s v1 v2 => cases h

theorem follows_remove (v : PVar) (l : String) (hw : w.Ok) (h : w.model i = some m) :
    Follows i (removeFromObject i v l) (removeFromConstraint v l) w m := by
  have hc := model_constraints h
  have hd := dget_deref (hw i) l
  rw [← hc] at hd
  have hthrow : ∀ e, ((removeFromObject i v l).run w = .error e w) → ((removeFromConstraint v l).run m = .error e m) →
      Follows i (removeFromObject i v l) (removeFromConstraint v l) w m :=
    fun e h1 h2 => (follows_throw e hw h).congr h1 h2
  cases hg : dget (w.refs i) l with
  | none =>
    rw [hg] at hd
    apply hthrow .keyError
    · unfold removeFromObject; py_simp; rw [hg]; rfl
    · unfold removeFromConstraint; py_simp; rw [hd]; rfl
  | some a =>
    rw [hg] at hd
    obtain ⟨c, hca, _⟩ := (hw i).objects _ (dget_mem hg)
    have hda : dget m.constraints l = some c := hd.trans hca
    cases hr : c.removeVariable v with
    | error e =>
      apply hthrow e
      · unfold removeFromObject; py_simp; rw [hg]; simp only [hca, hr]; rfl
      · unfold removeFromConstraint; py_simp; rw [hda]; simp only [hr]; rfl
    | ok c' =>
      have hx : (removeFromObject i v l).run w = .ok ⟨⟩ { w with heap := w.heap.set a c' } := by
        unfold removeFromObject; py_simp; rw [hg]; simp only [hca, hr]; rfl
      have hy : (removeFromConstraint v l).run m = .ok ⟨⟩ { m with constraints := dset m.constraints l c' } := by
        unfold removeFromConstraint; py_simp; rw [hda]; simp only [hr]; rfl
      have hle := HeapLe.set hca (removeVariable_label hr)
      constructor
      · rw [hx, hy]; rfl
      · rw [hx, hy]
        refine (heap_model h).trans ?_
        rw [deref_set (hw i) hg, ← hc]
        rfl
      · rw [hx]; exact hw.heap hle
      · rw [hx]; exact hle
      · rw [hx]
        intro j _
        refine ⟨rfl, ?_⟩
        cases hm : w.model j with
        | none =>
          show World.model _ j = none
          unfold World.model at hm ⊢
          rw [Option.map_eq_none_iff] at hm ⊢
          exact hm
        | some n => exact heap_model hm

theorem selectRemove_constraints (v : PVar) (m : LModel) :
    ((do
      let names ← selectByVariable v
      names.forM fun n => removeInteraction .none (.str n) : Py LModel Unit).run m).state.constraints = m.constraints := by
  have hT : TableFree fun s : LModel => s.constraints = m.constraints := fun _ _ _ _ _ h => h
  have : Py.Preserves (fun s : LModel => s.constraints = m.constraints) (do
      let names ← selectByVariable v
      names.forM fun n => removeInteraction .none (.str n) : Py LModel Unit) := by
    refine Py.Preserves.bind (selectByVariable_inv (I := fun s : LModel => s.constraints = m.constraints) v) fun names => ?_
    exact Py.Preserves.forM (fun n _ => remove_frame hT _ _)
  exact this m rfl

theorem follows_delete (v : PVar) (hw : w.Ok) (h : w.model i = some m) :
    Follows i (deleteOn i v) (deleteVariable v) w m := by
  have h1 : Follows i (onModel i (modify fun m : LModel => { m with deleted := sadd m.deleted v.label }))
      (modify fun m : LModel => { m with deleted := sadd m.deleted v.label }) w m := follows_onModel hw h rfl
  refine (h1.bind (x' := (dkeys (w.refs i)).forM (removeFromObject i v) >>= fun _ => onModel i (do
      let names ← selectByVariable v
      names.forM fun n => removeInteraction .none (.str n)))
    (y' := (dkeys (w.refs i)).forM (removeFromConstraint v) >>= fun _ => (do
      let names ← selectByVariable v
      names.forM fun n => removeInteraction .none (.str n)))
    fun w' m' _ _ hw' hm' => (follows_forM _ (fun l w m hw hm => follows_remove v l hw hm) hw' hm').bind
      fun w₂ m₂ _ _ hw₂ hm₂ => follows_onModel hw₂ hm₂ (selectRemove_constraints v m₂)).congr ?_ ?_
  · unfold deleteOn
    rw [Py.run_bind, Py.run_bind, onModel_run h]
    show Py.run _ _ = Py.run _ _
    rw [Py.run_bind]
    show Py.run ((dkeys ((w.put i _).refs i)).forM _ >>= _) _ = _
    rw [put_refs]
  · have hk : dkeys m.constraints = dkeys (w.refs i) := by rw [model_constraints h, dkeys_deref (hw i)]
    unfold deleteVariable
    rw [← hk]
    rfl

/-- The calls on a model except `add_constraint`, `merge`. -/
def Op.Single : Op → Prop
  | .addConstraint _ => False
  | .merge _ _ => False
  | _ => True

theorem follows_unregister (l : String) (hw : w.Ok) (h : w.model i = some m) :
    Follows i (unregisterConstraint i l) (removeConstraint l) w m := by
  have hc := model_constraints h
  have hd := dget_deref (hw i) l
  rw [← hc] at hd
  cases hg : dget (w.refs i) l with
  | none =>
    rw [hg] at hd
    have hd' : dget m.constraints l = none := hd
    refine (follows_throw .keyError hw h).congr ?_ ?_
    · unfold unregisterConstraint; py_simp; simp only [hg]; rfl
    · unfold removeConstraint; py_simp; simp only [hd']; rfl
  | some a =>
    rw [hg] at hd
    obtain ⟨c, hca, _⟩ := (hw i).objects _ (dget_mem hg)
    have hda : dget m.constraints l = some c := hd.trans hca
    have hx : (unregisterConstraint i l).run w = .ok ⟨⟩ (w.putRefs i (dpop (w.refs i) l)) := by
      unfold unregisterConstraint; py_simp; simp only [hg]; rfl
    have hy : (removeConstraint l).run m = .ok ⟨⟩ { m with constraints := dpop m.constraints l } := by
      unfold removeConstraint; py_simp; simp only [hda]; rfl
    constructor
    · rw [hx, hy]; rfl
    · rw [hx, hy]
      refine (putRefs_model h).trans ?_
      rw [deref_dpop (hw i), ← hc]
      rfl
    · rw [hx]; exact hw.putRefs ((hw i).dpop l)
    · rw [hx]; exact HeapLe.refl _
    · rw [hx]
      intro j hj
      exact ⟨putRefs_refs_ne hj, (putRefs_model_ne hj).trans (model_same)⟩

theorem follows_call (env : Env) {op : Op} (ho : op.Single) (hw : w.Ok) (h : w.model i = some m) :
    Follows i ((WOp.call i op).run env) (op.call env) w m := by
  have hgen : op.Plain → (∀ l, op ≠ .removeConstraint l) → Follows i (onModel i (op.call env)) (op.call env) w m := by
    intro hp hl
    refine follows_onModel hw h ?_
    refine Props.step_constraints env hp ?_ hl m
    intro c hc
    subst hc
    exact ho
  cases op with
  | delete v => exact follows_delete v hw h
  | removeConstraint l => exact follows_unregister l hw h
  | addConstraint c => exact ho.elim
  | merge clk o => exact ho.elim
  | _ => exact hgen trivial (fun _ hc => by cases hc)

theorem follows_register {a : Nat} {c : Constraint} (hc : w.heap[a]? = some c) (hw : w.Ok) (h : w.model i = some m) :
    Follows i (registerConstraint i a) (addConstraint c) w m := by
  have hx : (registerConstraint i a).run w = .ok ⟨⟩ (w.putRefs i (dset (w.refs i) c.label a)) := by
    obtain ⟨hm, hh, _⟩ := model_eq_some.mp h
    unfold registerConstraint; py_simp; simp only [hc, hh]; rfl
  have hy : (addConstraint c).run m = .ok ⟨⟩ { m with constraints := dset m.constraints c.label c } := rfl
  constructor
  · rw [hx, hy]; rfl
  · rw [hx, hy]
    refine (putRefs_model h).trans ?_
    rw [deref_dset (hw i) hc, ← model_constraints h]
    rfl
  · rw [hx]; exact hw.putRefs ((hw i).dset hc)
  · rw [hx]; exact HeapLe.refl _
  · rw [hx]
    intro j hj
    exact ⟨putRefs_refs_ne hj, (putRefs_model_ne hj).trans (model_same)⟩

end Sawatabi
