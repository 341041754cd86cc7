import Verif.Base
import Mathlib.Data.List.Nodup

/-!
# Laws of the ordered dictionaries
-/

namespace Sawatabi

variable {κ ν : Type} [DecidableEq κ]

theorem dget_dset_self (d : List (κ × ν)) (k : κ) (v : ν) : dget (dset d k v) k = some v := by
  induction d with
  | nil => simp [dset, dget]
  | cons p d ih =>
    obtain ⟨k', v'⟩ := p
    by_cases h : k' = k <;> simp [dset, dget, h, ih]

theorem dget_dset_ne (d : List (κ × ν)) {k k₂ : κ} (v : ν) (h : k₂ ≠ k) :
    dget (dset d k v) k₂ = dget d k₂ := by
  induction d with
  | nil => simp [dset, dget, Ne.symm h]
  | cons p d ih =>
    obtain ⟨k', v'⟩ := p
    by_cases h' : k' = k
    · subst h'; simp [dset, dget, Ne.symm h]
    · simp only [dset, h', if_false, dget, ih]

theorem dget_eq_none_iff (d : List (κ × ν)) (k : κ) : dget d k = none ↔ k ∉ dkeys d := by
  induction d with
  | nil => simp [dget, dkeys]
  | cons p d ih =>
    obtain ⟨k', v'⟩ := p
    by_cases h : k' = k
    · simp [dget, dkeys, h]
    · have : ¬ k = k' := fun e => h e.symm
      simp only [dget, h, if_false, ih, dkeys, List.map_cons, List.mem_cons, this, false_or]

theorem dget_isSome_iff (d : List (κ × ν)) (k : κ) : (∃ v, dget d k = some v) ↔ k ∈ dkeys d := by
  rw [← not_iff_not, ← dget_eq_none_iff]
  cases dget d k <;> simp

theorem dget_mem {d : List (κ × ν)} {k : κ} {v : ν} (h : dget d k = some v) : (k, v) ∈ d := by
  induction d with
  | nil => simp [dget] at h
  | cons p d ih =>
    obtain ⟨k', v'⟩ := p
    by_cases h' : k' = k
    · simp [dget, h'] at h; simp [h', h]
    · simp only [dget, h', if_false] at h; exact List.mem_cons_of_mem _ (ih h)

theorem dget_of_mem {d : List (κ × ν)} {k : κ} {v : ν} (hn : (dkeys d).Nodup) (h : (k, v) ∈ d) :
    dget d k = some v := by
  induction d with
  | nil => simp at h
  | cons p d ih =>
    obtain ⟨k', v'⟩ := p
    simp only [dkeys, List.map_cons, List.nodup_cons] at hn
    rcases List.mem_cons.mp h with h | h
    · cases h; simp [dget]
    · have hk : k' ≠ k := by
        rintro rfl
        exact hn.1 (List.mem_map.mpr ⟨_, h, rfl⟩)
      simp only [dget, hk, if_false]
      exact ih hn.2 h

theorem dkeys_dset_of_mem {d : List (κ × ν)} {k : κ} (v : ν) (h : k ∈ dkeys d) :
    dkeys (dset d k v) = dkeys d := by
  induction d with
  | nil => simp [dkeys] at h
  | cons p d ih =>
    obtain ⟨k', v'⟩ := p
    by_cases h' : k' = k
    · simp [dset, h', dkeys]
    · have : k ∈ dkeys d := by
        rcases List.mem_cons.mp h with e | e
        · exact absurd e.symm h'
        · exact e
      simp only [dset, h', if_false, dkeys, List.map_cons]
      exact congrArg _ (ih this)

theorem dset_of_not_mem {d : List (κ × ν)} {k : κ} (v : ν) (h : k ∉ dkeys d) :
    dset d k v = d ++ [(k, v)] := by
  induction d with
  | nil => simp [dset]
  | cons p d ih =>
    obtain ⟨k', v'⟩ := p
    have h' : k' ≠ k := by rintro rfl; simp [dkeys] at h
    have h2 : k ∉ dkeys d := by intro e; exact h (List.mem_cons_of_mem _ e)
    simp [dset, h', ih h2]

theorem dkeys_dset_of_not_mem {d : List (κ × ν)} {k : κ} (v : ν) (h : k ∉ dkeys d) :
    dkeys (dset d k v) = dkeys d ++ [k] := by
  rw [dset_of_not_mem v h]; simp [dkeys]

theorem mem_dkeys_dset {d : List (κ × ν)} {k k₂ : κ} (v : ν) :
    k₂ ∈ dkeys (dset d k v) ↔ k₂ = k ∨ k₂ ∈ dkeys d := by
  by_cases h : k ∈ dkeys d
  · rw [dkeys_dset_of_mem v h]
    constructor
    · exact Or.inr
    · rintro (rfl | h') <;> assumption
  · rw [dkeys_dset_of_not_mem v h]; simp [or_comm]

theorem nodup_dset {d : List (κ × ν)} {k : κ} (v : ν) (h : (dkeys d).Nodup) :
    (dkeys (dset d k v)).Nodup := by
  by_cases hk : k ∈ dkeys d
  · rwa [dkeys_dset_of_mem v hk]
  · rw [dkeys_dset_of_not_mem v hk]
    refine List.Nodup.append h (by simp) ?_
    simp [hk]

theorem mem_dset {d : List (κ × ν)} {k : κ} {v : ν} {p : κ × ν} (h : p ∈ dset d k v) :
    p = (k, v) ∨ p ∈ d := by
  induction d with
  | nil => simp [dset] at h; exact Or.inl h
  | cons q d ih =>
    obtain ⟨k', v'⟩ := q
    by_cases h' : k' = k
    · subst h'
      simp [dset] at h
      rcases h with h | h
      · exact Or.inl h
      · exact Or.inr (List.mem_cons_of_mem _ h)
    · simp [dset, h'] at h
      rcases h with h | h
      · exact Or.inr (by simp [h])
      · rcases ih h with h | h
        · exact Or.inl h
        · exact Or.inr (List.mem_cons_of_mem _ h)

theorem mem_sadd {s : List κ} {k x : κ} : x ∈ sadd s k ↔ x = k ∨ x ∈ s := by
  unfold sadd
  split
  · constructor
    · exact Or.inr
    · rintro (rfl | h) <;> assumption
  · simp [or_comm]

theorem nodup_sadd {s : List κ} {k : κ} (h : s.Nodup) : (sadd s k).Nodup := by
  unfold sadd
  split
  · exact h
  · exact List.Nodup.append h (by simp) (by simpa)

theorem mem_foldl_sadd {l s : List κ} {x : κ} : x ∈ l.foldl sadd s ↔ x ∈ s ∨ x ∈ l := by
  induction l generalizing s with
  | nil => simp
  | cons a l ih => simp only [List.foldl_cons, ih, mem_sadd, List.mem_cons]; tauto

theorem nodup_foldl_sadd {l s : List κ} (h : s.Nodup) : (l.foldl sadd s).Nodup := by
  induction l generalizing s with
  | nil => exact h
  | cons a l ih => exact ih (nodup_sadd h)

end Sawatabi
