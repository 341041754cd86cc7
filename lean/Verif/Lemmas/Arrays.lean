import Verif.Lemmas.ConstraintNames
import Verif.Lemmas.Merge
import Verif.Spec.Arrays

/-!
# Lemmas about arrays of variables
-/

namespace Sawatabi

theorem idxSuffix_eq (idx : List Nat) : idxSuffix idx = String.join (idx.map fun i => "[" ++ toString i ++ "]") := by
  induction idx with
  | nil => rfl
  | cons i is ih =>
    rw [List.map_cons, String.join_cons, ← ih]
    rfl

theorem arrayLabel_eq (name : String) (idx : List Nat) : arrayLabel name idx = name ++ idxSuffix idx := by
  rw [arrayLabel, idxSuffix_eq]

theorem mem_indices {idx sh : List Nat} : idx ∈ indices sh ↔ InShape idx sh := by
  unfold InShape
  induction sh generalizing idx with
  | nil => simp [indices]
  | cons d ds ih =>
    simp only [indices, List.mem_flatMap, List.mem_range, List.mem_map]
    constructor
    · rintro ⟨i, hi, is, his, rfl⟩
      exact .cons hi (ih.mp his)
    · intro h
      cases h with
      | cons hi his => exact ⟨_, hi, _, ih.mpr his, rfl⟩

theorem indices_length (sh : List Nat) : (indices sh).length = sh.prod := by
  induction sh with
  | nil => rfl
  | cons d ds ih =>
    simp only [indices, List.length_flatMap, List.length_map, ih, List.prod_cons]
    simp

theorem nodup_indices (sh : List Nat) : (indices sh).Nodup := by
  induction sh with
  | nil => simp [indices]
  | cons d ds ih =>
    simp only [indices]
    rw [List.nodup_flatMap]
    constructor
    · intro i _
      exact ih.map (fun a b h => by simpa using h)
    · apply List.Pairwise.imp _ List.nodup_range
      intro i j hij
      simp only [Function.onFun, List.disjoint_left, List.mem_map]
      rintro _ ⟨is, _, rfl⟩ ⟨js, _, h⟩
      simp at h
      exact hij h.1.symm

theorem split_at {c : Char} {a b x y : List Char} (ha : c ∉ a) (hb : c ∉ b) (h : a ++ c :: x = b ++ c :: y) :
    a = b ∧ x = y := by
  induction a generalizing b with
  | nil =>
    cases b with
    | nil => simpa using h
    | cons z b =>
      simp only [List.nil_append, List.cons_append, List.cons.injEq] at h
      exact absurd (by simp [← h.1]) hb
  | cons z a ih =>
    cases b with
    | nil =>
      simp only [List.nil_append, List.cons_append, List.cons.injEq] at h
      exact absurd (by simp [h.1]) ha
    | cons w b =>
      simp only [List.cons_append, List.cons.injEq] at h
      have := ih (fun hm => ha (List.mem_cons_of_mem _ hm)) (fun hm => hb (List.mem_cons_of_mem _ hm)) h.2
      exact ⟨by rw [h.1, this.1], this.2⟩

theorem repr_inj' {i j : Nat} (h : (Nat.repr i).toList = (Nat.repr j).toList) : i = j := by
  rw [Nat.toList_repr, Nat.toList_repr] at h
  have := congrArg (fun l => Nat.ofDigitChars 10 l 0) h
  simpa using this

theorem bracket_notin_repr (i : Nat) : ']' ∉ (Nat.repr i).toList := by
  rw [Nat.toList_repr]
  intro h
  have := Nat.isDigit_of_mem_toDigits (b := 10) (by decide) (by decide) h
  revert this
  decide

theorem idxSuffix_inj {a b : List Nat} (h : idxSuffix a = idxSuffix b) : a = b := by
  have cons : ∀ i is, (idxSuffix (i :: is)).toList = '[' :: ((Nat.repr i).toList ++ ']' :: (idxSuffix is).toList) := by
    intro i is
    have h1 : ("[" : String).toList = ['['] := rfl
    have h2 : ("]" : String).toList = [']'] := rfl
    simp only [idxSuffix, String.toList_append, h1, h2, List.append_assoc, List.cons_append, List.nil_append]
  have key : ∀ a b : List Nat, (idxSuffix a).toList = (idxSuffix b).toList → a = b := by
    intro a
    induction a with
    | nil =>
      intro b h
      cases b with
      | nil => rfl
      | cons j js => rw [cons] at h; simp [idxSuffix] at h
    | cons i is ih =>
      intro b h
      cases b with
      | nil => rw [cons] at h; simp [idxSuffix] at h
      | cons j js =>
        rw [cons, cons] at h
        have h := (List.cons.inj h).2
        obtain ⟨h1, h2⟩ := split_at (bracket_notin_repr i) (bracket_notin_repr j) h
        rw [repr_inj' h1, ih js h2]
  exact key a b (congrArg String.toList h)

theorem string_append_left_inj {n a b : String} (h : n ++ a = n ++ b) : a = b := by
  have := congrArg String.toList h
  rw [String.toList_append, String.toList_append] at this
  exact String.toList_inj.mp (List.append_cancel_left this)

theorem rowMajor_lt {idx sh : List Nat} (h : InShape idx sh) : rowMajor sh idx < sh.prod := by
  unfold InShape at h
  induction h with
  | nil => simp [rowMajor]
  | @cons i d is ds hd _ ih =>
    simp only [rowMajor, List.prod_cons]
    calc i * ds.prod + rowMajor ds is < i * ds.prod + ds.prod := by omega
      _ = (i + 1) * ds.prod := by rw [Nat.succ_mul]
      _ ≤ d * ds.prod := Nat.mul_le_mul_right _ hd

theorem getElem?_flatMap_block {α β : Type} (l : List α) (f : α → List β) (n : Nat) (hf : ∀ a ∈ l, (f a).length = n) (i j : Nat)
    (hj : j < n) : (l.flatMap f)[i * n + j]? = l[i]?.bind fun a => (f a)[j]? := by
  induction l generalizing i with
  | nil => simp
  | cons a l ih =>
    have ha := hf a (by simp)
    rw [List.flatMap_cons]
    cases i with
    | zero => rw [List.getElem?_append_left (by omega)]; simp
    | succ i =>
      rw [List.getElem?_append_right (by rw [ha, Nat.succ_mul]; omega), ha,
        show (i + 1) * n + j - n = i * n + j by rw [Nat.succ_mul]; omega, ih (fun a ha => hf a (by simp [ha]))]
      simp

theorem indices_rowMajor {idx sh : List Nat} (h : InShape idx sh) : (indices sh)[rowMajor sh idx]? = some idx := by
  have h0 := h
  unfold InShape at h
  induction h with
  | nil => simp [indices, rowMajor]
  | @cons i d is ds hd ht ih =>
    simp only [indices, rowMajor]
    rw [getElem?_flatMap_block _ _ ds.prod (by simp [indices_length]) _ _ (rowMajor_lt ht)]
    rw [List.getElem?_range hd]
    simp [ih ht]

/-- The array `arrayCreate` builds. -/
def stdArray (name : String) (sh : List Nat) (vt : VType) : VArray :=
  ⟨sh, (indices sh).map fun i => ⟨vt, name ++ idxSuffix i⟩⟩

theorem stdArray_isArray (name : String) (sh : List Nat) (vt : VType) : IsArray name sh vt (stdArray name sh vt) where
  shape := rfl
  mem := by
    intro v
    simp only [stdArray, List.mem_map, mem_indices, arrayLabel_eq]
    constructor
    · rintro ⟨i, hi, rfl⟩; exact ⟨i, hi, rfl⟩
    · rintro ⟨i, hi, rfl⟩; exact ⟨i, hi, rfl⟩
  nodup := by
    simp only [stdArray, List.map_map]
    apply (nodup_indices sh).map
    intro a b h
    exact idxSuffix_inj (string_append_left_inj h)
  count := by simp [stdArray, indices_length]
  order := by
    intro idx h
    simp only [stdArray, List.getElem?_map, indices_rowMajor h, Option.map_some, arrayLabel_eq]

theorem arrayCreate_spec (name : String) (shape : List Int) (vt : VType) :
    (shape ≠ [] ∧ (∀ d ∈ shape, 0 < d) ∧ '*' ∉ name.toList →
      arrayCreate name shape vt = .ok (stdArray name (shape.map Int.toNat) vt)) ∧
    (¬ (shape ≠ [] ∧ (∀ d ∈ shape, 0 < d) ∧ '*' ∉ name.toList) → ∃ e, arrayCreate name shape vt = .error e) := by
  unfold arrayCreate
  constructor
  · rintro ⟨h1, h2, h3⟩
    rw [if_neg h1, if_neg, if_neg h3]
    · rfl
    · simp only [List.any_eq_true, decide_eq_true_eq, not_exists, not_and, not_le]
      exact h2
  · intro h
    by_cases h1 : shape = []
    · exact ⟨_, if_pos h1⟩
    · rw [if_neg h1]
      by_cases h2 : shape.any (· ≤ 0) = true
      · exact ⟨_, if_pos h2⟩
      · rw [if_neg h2]
        by_cases h3 : '*' ∈ name.toList
        · exact ⟨_, if_pos h3⟩
        · exfalso
          apply h
          refine ⟨h1, ?_, h3⟩
          simpa only [List.any_eq_true, decide_eq_true_eq, not_exists, not_and, not_le] using h2

theorem arrayCreate_ok {name : String} {shape : List Int} {vt : VType} {a : VArray}
    (h : arrayCreate name shape vt = .ok a) :
    (shape ≠ [] ∧ (∀ d ∈ shape, 0 < d) ∧ '*' ∉ name.toList) ∧ a = stdArray name (shape.map Int.toNat) vt := by
  by_cases hc : shape ≠ [] ∧ (∀ d ∈ shape, 0 < d) ∧ '*' ∉ name.toList
  · rw [(arrayCreate_spec name shape vt).1 hc] at h
    cases h
    exact ⟨hc, rfl⟩
  · obtain ⟨e, he⟩ := (arrayCreate_spec name shape vt).2 hc
    rw [he] at h
    cases h

/-- What `VarsOk` says about a single array. -/
def ArrayOk (vt : VType) (n : String) (a : VArray) : Prop :=
  IsArray n a.shape vt a ∧ a.shape ≠ [] ∧ (∀ d ∈ a.shape, 0 < d) ∧ '*' ∉ n.toList

theorem arrayCreate_arrayOk {name : String} {shape : List Int} {vt : VType} {a : VArray}
    (h : arrayCreate name shape vt = .ok a) : ArrayOk vt name a := by
  obtain ⟨⟨h1, h2, h3⟩, rfl⟩ := arrayCreate_ok h
  refine ⟨stdArray_isArray _ _ _, ?_, ?_, h3⟩
  · simpa [stdArray] using h1
  · intro d hd
    simp only [stdArray, List.mem_map] at hd
    obtain ⟨x, hx, rfl⟩ := hd
    have := h2 x hx
    omega

theorem arrayCreate_of_ok {vt vt' : VType} {n : String} {a : VArray} (h : ArrayOk vt n a) :
    arrayCreate n (a.shape.map Int.ofNat) vt' = .ok (stdArray n a.shape vt') := by
  obtain ⟨_, h1, h2, h3⟩ := h
  rw [(arrayCreate_spec _ _ _).1]
  · rw [List.map_map]
    congr 2
    conv_rhs => rw [← List.map_id a.shape]
    apply List.map_congr_left
    intro d _
    simp
  · refine ⟨by simpa using h1, ?_, h3⟩
    intro d hd
    obtain ⟨x, hx, rfl⟩ := List.mem_map.mp hd
    have := h2 x hx
    simp only [Int.ofNat_eq_natCast]
    omega

theorem VarsOk.set {m : LModel} {n : String} {a : VArray} {vs : List (String × VArray)} (h : VarsOk m)
    (ha : ArrayOk m.mtype.vtype n a) (hvs : vs = dset m.vars n a) : VarsOk { m with vars := vs } := by
  subst hvs
  refine ⟨nodup_dset _ h.keys, ?_⟩
  intro k b hb
  rcases mem_dset hb with heq | hb
  · cases heq
    exact ha
  · exact h.arrays k b hb

/-! ## The calls keep `VarsOk` -/

theorem createVars_run (n : String) (sh : List Int) (m : LModel) :
    (createVars n sh).run m = if sh = [] then .error .typeError m else
      match arrayCreate n sh m.mtype.vtype with
      | .error e => .error e m
      | .ok a => .ok a { m with vars := dset m.vars n a } := by
  unfold createVars
  by_cases h : sh = []
  · simp only [h, if_true]; rfl
  · simp only [h, if_false]
    py_simp
    cases arrayCreate n sh m.mtype.vtype <;> rfl

theorem appendVars_run (n : String) (sh : List Int) (m : LModel) :
    (appendVars n sh).run m = if sh = [] then .error .typeError m else
      match dget m.vars n with
      | none => (createVars n sh).run m
      | some old =>
        match arrayCreate n (elementwiseAdd (old.shape.map Int.ofNat) sh) m.mtype.vtype with
        | .error e => .error e m
        | .ok a => .ok a { m with vars := dset m.vars n a } := by
  unfold appendVars
  by_cases h : sh = []
  · simp only [h, if_true]; rfl
  · simp only [h, if_false]
    py_simp
    cases dget m.vars n with
    | none => rfl
    | some old =>
      simp only [Py.run_bind]
      cases arrayCreate n (elementwiseAdd (old.shape.map Int.ofNat) sh) m.mtype.vtype <;> rfl

theorem createVars_ok (n : String) (sh : List Int) : Py.Preserves VarsOk (createVars n sh) := by
  intro m hm
  rw [createVars_run]
  split
  · exact hm
  · cases h : arrayCreate n sh m.mtype.vtype with
    | error e => exact hm
    | ok a => exact hm.set (arrayCreate_arrayOk h) rfl

theorem appendVars_ok (n : String) (sh : List Int) : Py.Preserves VarsOk (appendVars n sh) := by
  intro m hm
  rw [appendVars_run]
  split
  · exact hm
  · cases dget m.vars n with
    | none => exact createVars_ok n sh m hm
    | some old =>
      simp only
      cases h : arrayCreate n (elementwiseAdd (old.shape.map Int.ofNat) sh) m.mtype.vtype with
      | error e => exact hm
      | ok a => exact hm.set (arrayCreate_arrayOk h) rfl

/-- Labels of different arrays differ if the array names contain no bracket. -/
theorem arrayLabel_stem {n k : String} {i j : List Nat} (hn : '[' ∉ n.toList) (hk : '[' ∉ k.toList) (hi : i ≠ [])
    (hj : j ≠ []) (h : arrayLabel n i = arrayLabel k j) : n = k := by
  rw [arrayLabel_eq, arrayLabel_eq] at h
  have h := congrArg String.toList h
  cases i with
  | nil => exact absurd rfl hi
  | cons x xs =>
    cases j with
    | nil => exact absurd rfl hj
    | cons y ys =>
      have h1 : ("[" : String).toList = ['['] := rfl
      simp only [idxSuffix, String.toList_append, h1, List.append_assoc, List.cons_append, List.nil_append] at h
      exact String.toList_inj.mp (split_at hn hk h).1

theorem InShape.ne_nil {i sh : List Nat} (h : InShape i sh) (hs : sh ≠ []) : i ≠ [] := by
  rintro rfl
  cases h
  exact hs rfl

theorem allLabels_nodup {m : LModel} (h : VarsOk m) (hb : ∀ n ∈ dkeys m.vars, '[' ∉ n.toList) : m.allLabels.Nodup := by
  unfold LModel.allLabels
  apply nodup_flatMap' (g := fun p => p.1)
  · exact h.keys
  · intro p hp
    exact (h.arrays p.1 p.2 hp).1.nodup
  · intro p hp q hq hpq x hx hxq
    obtain ⟨v, hv, rfl⟩ := List.mem_map.mp hx
    obtain ⟨w, hw, hvw⟩ := List.mem_map.mp hxq
    have h1 := h.arrays p.1 p.2 hp
    have h2 := h.arrays q.1 q.2 hq
    obtain ⟨i, hi, rfl⟩ := (h1.1.mem v).mp hv
    obtain ⟨j, hj, rfl⟩ := (h2.1.mem w).mp hw
    simp only at hvw
    exact hpq (arrayLabel_stem (hb _ (List.mem_map_of_mem hp)) (hb _ (List.mem_map_of_mem hq)) (hi.ne_nil h1.2.1)
      (hj.ne_nil h2.2.1) hvw.symm)

theorem foldl_mul_eq (l : List Nat) (a : Nat) : l.foldl (· * ·) a = a * l.prod := by
  induction l generalizing a with
  | nil => simp
  | cons d l ih => rw [List.foldl_cons, ih, List.prod_cons, mul_assoc]

theorem allSize_eq {m : LModel} (h : VarsOk m) : m.allSize = m.allLabels.length := by
  unfold LModel.allSize LModel.allLabels
  have key : ∀ (vs : List (String × VArray)) (a : Nat), (∀ p ∈ vs, p.2.bits.length = p.2.shape.prod) →
      vs.foldl (fun acc p => acc + p.2.shape.foldl (· * ·) 1) a =
        a + (vs.flatMap fun p => p.2.bits.map (·.label)).length := by
    intro vs
    induction vs with
    | nil => intro a _; rfl
    | cons p vs ih =>
      intro a hp
      rw [List.foldl_cons, ih _ (fun q hq => hp q (by simp [hq])), List.flatMap_cons, List.length_append,
        List.length_map, foldl_mul_eq, one_mul, hp p (by simp)]
      omega
  rw [key m.vars 0 (fun p hp => (h.arrays p.1 p.2 hp).1.count), zero_add]

/-- Growing a shape keeps the index tuples. -/
theorem InShape.mono {i sh sh' : List Nat} (h : InShape i sh) (hs : List.Forall₂ (· ≤ ·) sh sh') : InShape i sh' := by
  unfold InShape at h ⊢
  induction hs generalizing i with
  | nil => exact h
  | cons hd _ ih =>
    cases h with
    | cons h1 h2 => exact .cons (lt_of_lt_of_le h1 hd) (ih h2)

end Sawatabi
