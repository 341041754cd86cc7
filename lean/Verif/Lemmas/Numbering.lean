import Verif.Lemmas.Group
import Mathlib.Data.List.Induction

/-!
# The numbering of variables, also if labels clash
-/

namespace Sawatabi

/-- `i` is the last position of `l` in the list. -/
def IsLast (L : List String) (l : String) (i : Nat) : Prop := L[i]? = some l ∧ ∀ j, L[j]? = some l → j ≤ i

theorem isLast_unique {L : List String} {l : String} {i j : Nat} (h : IsLast L l i) (h' : IsLast L l j) : i = j :=
  le_antisymm (h'.2 i h.1) (h.2 j h'.1)

theorem isLast_concat {L : List String} {a l : String} {i : Nat} :
    IsLast (L ++ [a]) l i ↔ if l = a then i = L.length else IsLast L l i := by
  have hget : ∀ j, (L ++ [a])[j]? = some l ↔ L[j]? = some l ∨ (j = L.length ∧ a = l) := by
    intro j
    rcases Nat.lt_trichotomy j L.length with h | rfl | h
    · rw [List.getElem?_append_left h]
      exact ⟨.inl, fun h' => h'.elim id fun h' => by omega⟩
    · simp
    · rw [List.getElem?_eq_none (by simp; omega), List.getElem?_eq_none (by omega)]
      simp
      omega
  unfold IsLast
  split
  · rename_i h
    subst h
    constructor
    · rintro ⟨h1, h2⟩
      have h3 := h2 L.length ((hget _).mpr (.inr ⟨rfl, rfl⟩))
      rcases (hget i).mp h1 with h | h
      · have := (List.getElem?_eq_some_iff.mp h).1
        omega
      · exact h.1
    · rintro rfl
      refine ⟨(hget _).mpr (.inr ⟨rfl, rfl⟩), fun j hj => ?_⟩
      rcases (hget j).mp hj with h | h
      · have := (List.getElem?_eq_some_iff.mp h).1
        omega
      · omega
  · rename_i h
    have h' : ¬ a = l := fun e => h e.symm
    simp [hget, h']

theorem isLast_nodup {L : List String} (hL : L.Nodup) {l : String} {i : Nat} : IsLast L l i ↔ L[i]? = some l := by
  constructor
  · exact fun h => h.1
  · intro h
    refine ⟨h, fun j hj => ?_⟩
    obtain ⟨h1, h2⟩ := List.getElem?_eq_some_iff.mp h
    obtain ⟨h3, h4⟩ := List.getElem?_eq_some_iff.mp hj
    exact le_of_eq ((hL.getElem_inj_iff).mp (h4.trans h2.symm))

theorem exists_isLast {L : List String} {l : String} (h : l ∈ L) : ∃ i, IsLast L l i := by
  induction L using List.reverseRecOn with
  | nil => cases h
  | append_singleton L a ih =>
    by_cases e : l = a
    · exact ⟨L.length, isLast_concat.mpr (by rw [if_pos e])⟩
    · have : l ∈ L := by simpa [e] using h
      obtain ⟨i, hi⟩ := ih this
      exact ⟨i, isLast_concat.mpr (by rw [if_neg e]; exact hi)⟩

/-- The numbering in general. -/
theorem numbering_last (m : LModel) (vs : List String) :
    (numbering m vs).i2l = (numbered m vs).zipIdx.map Prod.swap ∧
    ∀ l i, dget (numbering m vs).l2i l = some i ↔ IsLast (numbered m vs) l i := by
  have key : ∀ ls : List String,
      let n := ls.foldl (numberStep m.deleted vs) ⟨[], [], 0⟩
      let L := ls.filter fun l => l ∉ m.deleted ∧ l ∈ vs
      n.cur = L.length ∧ n.i2l = L.zipIdx.map Prod.swap ∧ ∀ l i, dget n.l2i l = some i ↔ IsLast L l i := by
    intro ls
    induction ls using List.reverseRecOn with
    | nil => simp [dget, IsLast]
    | append_singleton ls a ih =>
      simp only at ih ⊢
      rw [List.foldl_append, List.filter_append]
      simp only [List.foldl_cons, List.foldl_nil]
      generalize ls.foldl (numberStep m.deleted vs) ⟨[], [], 0⟩ = n at ih ⊢
      generalize (ls.filter fun l => l ∉ m.deleted ∧ l ∈ vs) = L at ih ⊢
      obtain ⟨h1, h2, h3⟩ := ih
      unfold numberStep
      by_cases h : a ∉ m.deleted ∧ a ∈ vs
      · have hk : n.cur ∉ dkeys n.i2l := by
          rw [h2, h1]
          simp only [dkeys, List.map_map]
          have : ((fun x => x.1) ∘ Prod.swap : String × Nat → Nat) = Prod.snd := rfl
          rw [this, List.zipIdx_map_snd]
          simp
        simp only [h, if_true, not_false_eq_true, and_self, decide_true, List.filter_cons, List.filter_nil]
        refine ⟨by simp [h1], ?_, fun l i => ?_⟩
        · rw [dset_of_not_mem _ hk, h2, h1]
          simp [List.zipIdx_append]
        · rw [isLast_concat]
          by_cases e : l = a
          · subst e
            rw [dget_dset_self, if_pos rfl, h1]
            exact ⟨fun h => by cases h; rfl, fun h => by rw [h]⟩
          · rw [dget_dset_ne _ _ e, if_neg e]
            exact h3 l i
      · have hd : decide (a ∉ m.deleted ∧ a ∈ vs) = false := by simpa using h
        simp only [h, if_false, List.filter_cons, List.filter_nil, List.append_nil, Bool.false_eq_true, decide_false]
        exact ⟨h1, h2, h3⟩
  exact ⟨(key m.labels).2.1, (key m.labels).2.2⟩

/-- Setting the entries of a dictionary one after the other: the last one counts. -/
theorem foldl_dset_last {α : Type} {L : List String} {x : List α} (hx : x.length = L.length) {l : String} {i : Nat}
    (h : IsLast L l i) : dget ((L.zip x).foldl (fun d kv => dset d kv.1 kv.2) []) l = x[i]? := by
  induction L using List.reverseRecOn generalizing x with
  | nil => cases h.1
  | append_singleton L a ih =>
    obtain ⟨y, b, rfl⟩ : ∃ y b, x = y ++ [b] := by
      refine ⟨x.dropLast, x.getLast (by rintro rfl; simp at hx), (List.dropLast_append_getLast _).symm⟩
    have hy : y.length = L.length := by simpa using hx
    rw [List.zip_append hy.symm, List.foldl_append]
    simp only [List.zip_cons_cons, List.zip_nil_left, List.foldl_cons, List.foldl_nil]
    rw [isLast_concat] at h
    split at h
    · rename_i e
      subst e h
      rw [dget_dset_self, ← hy]
      simp
    · rename_i e
      rw [dget_dset_ne _ _ e, ih hy h]
      have := (List.getElem?_eq_some_iff.mp h.1).1
      rw [List.getElem?_append_left (by omega)]

end Sawatabi
