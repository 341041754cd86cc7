import Verif.Spec.Tsp
import Verif.Lemmas.Arrays
import Verif.Lemmas.Dict
import Verif.Lemmas.Group
import Verif.Lemmas.DeleteFix
import Mathlib.Data.List.Dedup
import Mathlib.Tactic.Ring
import Mathlib.Tactic.Linarith

/-!
# A compiler of quadratic expressions

It shows that what is expected of PyQUBO can be met for every quadratic expression.
-/

namespace Sawatabi.Tsp

theorem sum_map_mul_l {α : Type} (l : List α) (f : α → ℚ) (r : ℚ) : (l.map fun a => r * f a).sum = r * (l.map f).sum := by
  induction l with
  | nil => simp
  | cons a l ih => simp only [List.map_cons, List.sum_cons, ih]; ring

theorem sum_map_mul_r {α : Type} (l : List α) (f : α → ℚ) (r : ℚ) : (l.map fun a => f a * r).sum = (l.map f).sum * r := by
  induction l with
  | nil => simp
  | cons a l ih => simp only [List.map_cons, List.sum_cons, ih]; ring

/-- The labels of a product of two monomials in bits. -/
def join (a b : List String) : List String := a ++ b.filter fun x => decide (x ∉ a)

/-- An expression as a sum of monomials. -/
def monos : HExpr → List (List String × Coef)
  | .num q => [([], .num q)]
  | .var v => [([v.label], .num 1)]
  | .ph n => [([], .expr (.ph n))]
  | .add a b => monos a ++ monos b
  | .mul a b => (monos a).flatMap fun x => (monos b).map fun y => (join x.1 y.1, x.2.mul y.2)
  | .constraint e _ => monos e

/-- The value of a monomial. -/
def monoVal (σ : Assign) (l : List String) : ℚ := (l.map σ).prod

theorem absorb {σ : Assign} (hσ : σ.IsBinary) {a : List String} {x : String} (h : x ∈ a) : monoVal σ a * σ x = monoVal σ a := by
  induction a with
  | nil => cases h
  | cons y a ih =>
    unfold monoVal at ih ⊢
    rw [List.map_cons, List.prod_cons]
    rcases List.mem_cons.mp h with rfl | h
    · rcases hσ x with h0 | h0 <;> rw [h0] <;> ring
    · rw [mul_assoc, ih h]

theorem join_val {σ : Assign} (hσ : σ.IsBinary) (a b : List String) : monoVal σ (join a b) = monoVal σ a * monoVal σ b := by
  have key : ∀ b, monoVal σ a * monoVal σ (b.filter fun x => decide (x ∉ a)) = monoVal σ a * monoVal σ b := by
    intro b
    induction b with
    | nil => rfl
    | cons y b ih =>
      by_cases hy : y ∈ a
      · rw [List.filter_cons_of_neg (by simp [hy]), ih]
        show _ = _ * (List.map σ (y :: b)).prod
        rw [List.map_cons, List.prod_cons, ← mul_assoc, absorb hσ hy]
        rfl
      · rw [List.filter_cons_of_pos (by simp [hy])]
        show _ * (List.map σ (y :: _)).prod = _ * (List.map σ (y :: b)).prod
        simp only [List.map_cons, List.prod_cons]
        unfold monoVal at ih ⊢
        linear_combination σ y * ih
  rw [← key b]
  unfold join monoVal
  rw [List.map_append, List.prod_append]

/-- The value of a sum of monomials. -/
def sumVal (ρ : PEnv) (σ : Assign) (l : List (List String × Coef)) : ℚ := (l.map fun t => t.2.eval ρ * monoVal σ t.1).sum

theorem monos_eval {σ : Assign} (hσ : σ.IsBinary) (ρ : PEnv) (e : HExpr) : sumVal ρ σ (monos e) = e.eval ρ σ := by
  induction e with
  | num q => simp [sumVal, monos, monoVal, HExpr.eval, Coef.eval]
  | var v => simp [sumVal, monos, monoVal, HExpr.eval, Coef.eval]
  | ph n => simp [sumVal, monos, monoVal, HExpr.eval, Coef.eval, PExpr.eval]
  | add a b ha hb =>
    unfold sumVal at ha hb ⊢
    simp only [monos, List.map_append, List.sum_append, HExpr.eval, ha, hb]
  | mul a b ha hb =>
    simp only [HExpr.eval]
    rw [← ha, ← hb]
    unfold sumVal
    simp only [monos]
    generalize monos a = xs
    generalize monos b = ys
    induction xs with
    | nil => simp
    | cons x xs ih =>
      rw [List.flatMap_cons, List.map_append, List.sum_append, ih, List.map_cons, List.sum_cons, add_mul, List.map_map]
      congr 1
      rw [← sum_map_mul_l]
      congr 1
      apply List.map_congr_left
      intro y _
      simp only [Function.comp, Coef.eval_mul, join_val hσ]
      ring
  | constraint e l ih => exact ih

theorem join_sub {a b : List String} {x : String} (h : x ∈ join a b) : x ∈ a ∨ x ∈ b := by
  rcases List.mem_append.mp h with h | h
  · exact .inl h
  · exact .inr (List.mem_filter.mp h).1

theorem join_nodup {a b : List String} (ha : a.Nodup) (hb : b.Nodup) : (join a b).Nodup := by
  refine List.nodup_append.mpr ⟨ha, hb.filter _, ?_⟩
  rintro x hx y hy rfl
  have := (List.mem_filter.mp hy).2
  simp [hx] at this

theorem monos_spec (e : HExpr) : ∀ t ∈ monos e, (∀ x ∈ t.1, x ∈ e.labels) ∧ (∀ n ∈ t.2.placeholders, n ∈ e.placeholders) ∧
    t.1.length ≤ e.degree ∧ t.1.Nodup := by
  induction e with
  | num q => simp [monos, Coef.placeholders]
  | var v => simp [monos, HExpr.labels, Coef.placeholders, HExpr.degree]
  | ph n => simp [monos, Coef.placeholders, PExpr.placeholders, HExpr.placeholders]
  | add a b ha hb =>
    intro t ht
    rcases List.mem_append.mp ht with ht | ht
    · obtain ⟨h1, h2, h3, h4⟩ := ha t ht
      exact ⟨fun x hx => List.mem_append_left _ (h1 x hx), fun n hn => List.mem_append_left _ (h2 n hn),
        h3.trans (le_max_left _ _), h4⟩
    · obtain ⟨h1, h2, h3, h4⟩ := hb t ht
      exact ⟨fun x hx => List.mem_append_right _ (h1 x hx), fun n hn => List.mem_append_right _ (h2 n hn),
        h3.trans (le_max_right _ _), h4⟩
  | mul a b ha hb =>
    intro t ht
    simp only [monos, List.mem_flatMap, List.mem_map] at ht
    obtain ⟨x, hx, y, hy, rfl⟩ := ht
    obtain ⟨a1, a2, a3, a4⟩ := ha x hx
    obtain ⟨b1, b2, b3, b4⟩ := hb y hy
    refine ⟨fun z hz => ?_, fun n hn => ?_, ?_, join_nodup a4 b4⟩
    · rcases join_sub hz with h | h
      · exact List.mem_append_left _ (a1 z h)
      · exact List.mem_append_right _ (b1 z h)
    · rcases (Coef.placeholders_mul _ _ _).mp hn with h | h
      · exact List.mem_append_left _ (a2 n h)
      · exact List.mem_append_right _ (b2 n h)
    · unfold join HExpr.degree
      rw [List.length_append]
      have := List.length_filter_le (fun x_1 => decide (x_1 ∉ x.1)) y.1
      omega
  | constraint e l ih => exact ih

/-- The key of a monomial. -/
def keyOf : List String → String × String
  | [x] => (x, x)
  | [x, y] => if y < x then (y, x) else (x, y)
  | _ => ("", "")

theorem keyOf_val {σ : Assign} (hσ : σ.IsBinary) {l : List String} (h0 : l ≠ []) (h2 : l.length ≤ 2) :
    σ (keyOf l).1 * σ (keyOf l).2 = monoVal σ l := by
  match l, h0, h2 with
  | [x], _, _ =>
    simp only [keyOf, monoVal, List.map_cons, List.map_nil, List.prod_cons, List.prod_nil, mul_one]
    rcases hσ x with h | h <;> rw [h] <;> ring
  | [x, y], _, _ =>
    simp only [keyOf, monoVal, List.map_cons, List.map_nil, List.prod_cons, List.prod_nil, mul_one]
    split
    · rw [mul_comm]
    · rfl

theorem keyOf_ordered {l : List String} : ¬ (keyOf l).2 < (keyOf l).1 := by
  unfold keyOf
  split
  · exact lt_irrefl _
  · split
    · rename_i h
      exact lt_asymm h
    · assumption
  · exact lt_irrefl _

theorem keyOf_mem {l : List String} (h0 : l ≠ []) (h2 : l.length ≤ 2) : (keyOf l).1 ∈ l ∧ (keyOf l).2 ∈ l := by
  match l, h0, h2 with
  | [x], _, _ => simp [keyOf]
  | [x, y], _, _ =>
    by_cases h : y < x
    · rw [show keyOf [x, y] = (y, x) from if_pos h]; simp
    · rw [show keyOf [x, y] = (x, y) from if_neg h]; simp

/-- A sum of coefficients. -/
def sumCoef (l : List Coef) : Coef := l.foldr Coef.add (.num 0)

theorem sumCoef_eval (ρ : PEnv) (l : List Coef) : (sumCoef l).eval ρ = (l.map (Coef.eval ρ)).sum := by
  induction l with
  | nil => rfl
  | cons c l ih =>
    show (c.add (sumCoef l)).eval ρ = _
    rw [Coef.eval_add, ih, List.map_cons, List.sum_cons]

theorem sumCoef_placeholders {l : List Coef} {n : String} (h : n ∈ (sumCoef l).placeholders) : ∃ c ∈ l, n ∈ c.placeholders := by
  induction l with
  | nil => cases h
  | cons c l ih =>
    have h : n ∈ (c.add (sumCoef l)).placeholders := h
    have : n ∈ c.placeholders ∨ n ∈ (sumCoef l).placeholders := by
      revert h
      cases c <;> cases sumCoef l <;> simp [Coef.add, Coef.placeholders, Coef.toExpr, PExpr.placeholders]
    rcases this with h | h
    · exact ⟨c, by simp, h⟩
    · obtain ⟨c', h1, h2⟩ := ih h
      exact ⟨c', by simp [h1], h2⟩

theorem sum_groups {α β : Type} [DecidableEq β] (key : α → β) (f : α → ℚ) (T : List α) {K : List β} (hK : K.Nodup)
    (h : ∀ t ∈ T, key t ∈ K) : (K.map fun k => ((T.filter fun t => decide (key t = k)).map f).sum).sum = (T.map f).sum := by
  induction T with
  | nil => simp
  | cons t T ih =>
    rw [List.map_cons, List.sum_cons, ← ih fun t ht => h t (by simp [ht])]
    have hk := h t (by simp)
    clear ih h
    induction K with
    | nil => cases hk
    | cons k K ih =>
      obtain ⟨h1, h2⟩ := List.nodup_cons.mp hK
      simp only [List.map_cons, List.sum_cons]
      by_cases he : key t = k
      · rw [List.filter_cons_of_pos (by simp [he])]
        have : (K.map fun k => (((t :: T).filter fun t => decide (key t = k)).map f).sum) =
            K.map fun k => ((T.filter fun t => decide (key t = k)).map f).sum := by
          apply List.map_congr_left
          intro k' hk'
          rw [List.filter_cons_of_neg]
          simp only [decide_eq_true_eq, he]
          rintro rfl
          exact h1 hk'
        rw [this, List.map_cons, List.sum_cons]
        ring
      · rw [List.filter_cons_of_neg (by simp [he]), ih h2 ((List.mem_cons.mp hk).resolve_left he)]
        ring

/-- The monomials that are not constant. -/
def varying (e : HExpr) : List (List String × Coef) := (monos e).filter fun t => decide (t.1 ≠ [])

/-- The QUBO form. -/
def quboOf (e : HExpr) : List ((String × String) × Coef) :=
  ((varying e).map fun t => keyOf t.1).dedup.map fun k =>
    (k, sumCoef (((varying e).filter fun t => decide (keyOf t.1 = k)).map (·.2)))

/-- The constant. -/
def offsetOf (e : HExpr) : Coef := sumCoef (((monos e).filter fun t => decide (t.1 = [])).map (·.2))

open Classical in
/-- The array and the indices of a label. -/
noncomputable def placeOf (l : String) : Option (String × List Nat) :=
  if h : ∃ x : String × List Nat, '[' ∉ x.1.toList ∧ l = arrayLabel x.1 x.2 then some h.choose else none

/-- The structure. -/
noncomputable def structOf (e : HExpr) : List (String × (String × List Nat)) :=
  e.labels.filterMap fun l => (placeOf l).map fun x => (l, x)

/-- The compiled model. -/
noncomputable def compileRef (e : HExpr) : PModel := ⟨quboOf e, structOf e, offsetOf e⟩

theorem label_inj {n k : String} {i j : List Nat} (hn : '[' ∉ n.toList) (hk : '[' ∉ k.toList)
    (h : arrayLabel n i = arrayLabel k j) : n = k ∧ i = j := by
  have hbr : ∀ (n : String) i is, '[' ∈ (arrayLabel n (i :: is)).toList := by
    intro n i is
    rw [arrayLabel_eq]
    simp [idxSuffix, String.toList_append]
  have hnil : ∀ n, arrayLabel n [] = n := fun n => by
    rw [arrayLabel_eq]
    apply String.toList_inj.mp
    simp [idxSuffix]
  cases i with
  | nil =>
    cases j with
    | nil => rw [hnil, hnil] at h; exact ⟨h, rfl⟩
    | cons b j =>
      rw [hnil] at h
      exact absurd (hbr k b j) (h ▸ hn)
  | cons a i =>
    cases j with
    | nil =>
      rw [hnil] at h
      exact absurd (hbr n a i) (h ▸ hk)
    | cons b j =>
      obtain rfl := arrayLabel_stem hn hk (by simp) (by simp) h
      rw [arrayLabel_eq, arrayLabel_eq] at h
      exact ⟨rfl, idxSuffix_inj (string_append_left_inj h)⟩

theorem placeOf_some {l : String} {x : String × List Nat} (h : placeOf l = some x) : '[' ∉ x.1.toList ∧ l = arrayLabel x.1 x.2 := by
  unfold placeOf at h
  split at h
  · rename_i hx
    rw [← Option.some.inj h]
    exact hx.choose_spec
  · cases h

theorem placeOf_label {n : String} (hn : '[' ∉ n.toList) (idx : List Nat) : placeOf (arrayLabel n idx) = some (n, idx) := by
  have hx : ∃ x : String × List Nat, '[' ∉ x.1.toList ∧ arrayLabel n idx = arrayLabel x.1 x.2 := ⟨(n, idx), hn, rfl⟩
  unfold placeOf
  rw [dif_pos hx]
  obtain ⟨h1, h2⟩ := hx.choose_spec
  obtain ⟨h3, h4⟩ := label_inj hn h1 h2
  rw [Option.some.injEq, Prod.ext_iff]
  exact ⟨h3.symm, h4.symm⟩

theorem structOf_get (ls : List String) (l : String) :
    dget (ls.filterMap fun l => (placeOf l).map fun x => (l, x)) l = if l ∈ ls then placeOf l else none := by
  induction ls with
  | nil => rfl
  | cons a ls ih =>
    cases ha : placeOf a with
    | none =>
      rw [List.filterMap_cons_none (by simp [ha]), ih]
      by_cases h : a = l
      · subst h; simp [ha]
      · simp [show ¬ l = a from fun hc => h hc.symm]
    | some x =>
      rw [List.filterMap_cons_some (b := (a, x)) (by simp [ha])]
      by_cases h : a = l
      · subst h; simp [dget, ha]
      · rw [show dget ((a, x) :: ls.filterMap fun l => (placeOf l).map fun x => (l, x)) l =
            dget (ls.filterMap fun l => (placeOf l).map fun x => (l, x)) l by simp [dget, h], ih]
        simp [show ¬ l = a from fun hc => h hc.symm]

theorem compileRef_compiles {e : HExpr} (hd : e.degree ≤ 2) : Compiles e (compileRef e) := by
  have hv : ∀ t ∈ varying e, t ∈ monos e ∧ t.1 ≠ [] := by
    intro t ht
    obtain ⟨h1, h2⟩ := List.mem_filter.mp ht
    exact ⟨h1, by simpa using h2⟩
  have hl : ∀ t ∈ varying e, t.1.length ≤ 2 := fun t ht => ((monos_spec e t (hv t ht).1).2.2.1).trans hd
  refine ⟨?_, ?_, ?_, ?_, ?_, ?_, ?_⟩
  · intro ρ σ hσ
    rw [← monos_eval hσ ρ e]
    have hq : ((quboOf e).map fun kv => kv.2.eval ρ * (σ kv.1.1 * σ kv.1.2)).sum = sumVal ρ σ (varying e) := by
      unfold quboOf sumVal
      rw [List.map_map, ← sum_groups (fun t => keyOf t.1) (fun t => t.2.eval ρ * monoVal σ t.1) (varying e)
        (List.nodup_dedup ((varying e).map fun t => keyOf t.1))
        (fun t ht => List.mem_dedup.mpr (List.mem_map.mpr ⟨t, ht, rfl⟩))]
      congr 1
      apply List.map_congr_left
      intro k _
      simp only [Function.comp, sumCoef_eval, List.map_map]
      rw [← sum_map_mul_r]
      congr 1
      apply List.map_congr_left
      intro t ht
      obtain ⟨h1, h2⟩ := List.mem_filter.mp ht
      simp only [decide_eq_true_eq] at h2
      rw [← keyOf_val hσ (hv t h1).2 (hl t h1), h2]
      rfl
    show (offsetOf e).eval ρ + _ = _
    rw [show (compileRef e).qubo = quboOf e from rfl, hq]
    unfold offsetOf varying
    rw [sumCoef_eval]
    clear hv hl hq
    unfold sumVal
    generalize monos e = T
    induction T with
    | nil => simp
    | cons t T ih =>
      rw [List.map_cons, List.sum_cons, ← ih]
      by_cases h0 : t.1 = []
      · rw [List.filter_cons_of_pos (by simp [h0]), List.filter_cons_of_neg (by simp [h0])]
        simp only [List.map_cons, List.sum_cons, h0, monoVal, List.map_nil, List.prod_nil, mul_one]
        ring
      · rw [List.filter_cons_of_neg (by simp [h0]), List.filter_cons_of_pos (by simp [h0])]
        simp only [List.map_cons, List.sum_cons]
        ring
  · intro kv hkv
    obtain ⟨k, hk, rfl⟩ := List.mem_map.mp (show kv ∈ quboOf e from hkv)
    obtain ⟨t, ht, rfl⟩ := List.mem_map.mp (List.mem_dedup.mp hk)
    obtain ⟨h1, h2⟩ := keyOf_mem (hv t ht).2 (hl t ht)
    have := (monos_spec e t (hv t ht).1).1
    exact ⟨this _ h1, this _ h2⟩
  · have : ((quboOf e).map fun kv => pairOf kv.1) = ((varying e).map fun t => keyOf t.1).dedup := by
      unfold quboOf
      rw [List.map_map]
      conv_rhs => rw [← List.map_id ((varying e).map fun t => keyOf t.1).dedup]
      apply List.map_congr_left
      intro k hk
      obtain ⟨t, ht, rfl⟩ := List.mem_map.mp (List.mem_dedup.mp hk)
      simp only [Function.comp, pairOf, keyOf_ordered, if_false, id]
    show ((quboOf e).map fun kv => pairOf kv.1).Nodup
    rw [this]
    exact List.nodup_dedup _
  · intro kv hkv n hn
    obtain ⟨k, hk, rfl⟩ := List.mem_map.mp (show kv ∈ quboOf e from hkv)
    obtain ⟨c, hc, hn⟩ := sumCoef_placeholders hn
    obtain ⟨t, ht, rfl⟩ := List.mem_map.mp hc
    exact (monos_spec e t (hv t (List.mem_filter.mp ht).1).1).2.1 n hn
  · intro n hn
    obtain ⟨c, hc, hn⟩ := sumCoef_placeholders (show n ∈ (offsetOf e).placeholders from hn)
    obtain ⟨t, ht, rfl⟩ := List.mem_map.mp hc
    exact (monos_spec e t (List.mem_filter.mp ht).1).2.1 n hn
  · intro k n idx h
    rw [show (compileRef e).struct = structOf e from rfl, structOf, structOf_get] at h
    split at h
    · exact (placeOf_some h).2
    · cases h
  · intro n idx hn h
    rw [show (compileRef e).struct = structOf e from rfl, structOf, structOf_get, if_pos h, placeOf_label hn]

end Sawatabi.Tsp
