import Verif.Model.Equality
import Verif.Spec.Equality
import Verif.Lemmas.Dict
import Mathlib.Data.List.Nodup
import Mathlib.Data.List.Perm.Subperm

/-!
# Lemmas about `__eq__`
-/

namespace Sawatabi

variable {κ ν : Type} [DecidableEq κ]

theorem dget_perm {d e : List (κ × ν)} (h : d.Perm e) (hd : (dkeys d).Nodup) (k : κ) : dget d k = dget e k := by
  have he : (dkeys e).Nodup := (h.map Prod.fst).nodup_iff.mp hd
  cases hg : dget d k with
  | some v => exact (dget_of_mem he (h.mem_iff.mp (dget_mem hg))).symm
  | none =>
    cases hg' : dget e k with
    | none => rfl
    | some w =>
      rw [dget_of_mem hd (h.mem_iff.mpr (dget_mem hg'))] at hg
      cases hg

theorem perm_of_dget {d e : List (κ × ν)} (hd : (dkeys d).Nodup) (he : (dkeys e).Nodup) (h : ∀ k, dget d k = dget e k) :
    d.Perm e := by
  refine (List.perm_ext_iff_of_nodup (hd.of_map _) (he.of_map _)).mpr ?_
  rintro ⟨k, v⟩
  constructor
  · intro hm; exact dget_mem ((h k).symm.trans (dget_of_mem hd hm))
  · intro hm; exact dget_mem ((h k).trans (dget_of_mem he hm))

theorem dkeys_dpop_sublist (d : List (κ × ν)) (k : κ) :
    (dkeys (dpop d k)).Sublist (dkeys d) := by
  induction d with
  | nil => exact List.Sublist.refl _
  | cons p d ih =>
    obtain ⟨k', v⟩ := p
    rw [dpop]
    split
    · exact List.sublist_cons_self _ _
    · exact ih.cons₂ _

theorem dget_dpop_ne (d : List (κ × ν)) {k l : κ} (h : l ≠ k) :
    dget (dpop d k) l = dget d l := by
  induction d with
  | nil => rfl
  | cons p d ih =>
    obtain ⟨k', v⟩ := p
    rw [dpop]
    split
    · rename_i hk
      simp [dget, hk, Ne.symm h]
    · simp only [dget]
      rw [ih]

theorem dget_dpop_self {d : List (κ × ν)} (hn : (dkeys d).Nodup) (k : κ) :
    dget (dpop d k) k = none := by
  induction d with
  | nil => rfl
  | cons p d ih =>
    obtain ⟨k', v⟩ := p
    simp only [dkeys, List.map_cons, List.nodup_cons] at hn
    rw [dpop]
    split
    · rename_i hk
      subst hk
      exact (dget_eq_none_iff _ _).mpr hn.1
    · rename_i hk
      simp only [dget, if_neg hk]
      exact ih hn.2

theorem subset_of_length {a b : List κ} (ha : a.Nodup) (hb : b.Nodup) (hl : a.length = b.length) (h : ∀ x ∈ a, x ∈ b) :
    a.Perm b := by
  have : a.Subperm b := List.Nodup.subperm ha h
  exact this.perm_of_length_le (le_of_eq hl.symm)

theorem setEq_iff {a b : List κ} (ha : a.Nodup) (hb : b.Nodup) : setEq a b = true ↔ a.Perm b := by
  unfold setEq
  simp only [Bool.and_eq_true, beq_iff_eq, List.all_eq_true, decide_eq_true_eq]
  constructor
  · rintro ⟨hl, h⟩; exact subset_of_length ha hb hl h
  · intro h; exact ⟨h.length_eq, fun x hx => h.mem_iff.mp hx⟩

theorem dictEq_iff {veq : ν → ν → Bool} {R : ν → ν → Prop} {d e : List (κ × ν)} (hd : (dkeys d).Nodup) (he : (dkeys e).Nodup)
    (hv : ∀ p ∈ d, ∀ q ∈ e, veq p.2 q.2 = true ↔ R p.2 q.2) : dictEq veq d e = true ↔ DictAlike R d e := by
  unfold dictEq DictAlike
  simp only [Bool.and_eq_true, beq_iff_eq, List.all_eq_true]
  constructor
  · rintro ⟨hl, h⟩ k
    have hsub : ∀ x ∈ dkeys d, x ∈ dkeys e := by
      intro x hx
      obtain ⟨p, hp, rfl⟩ := List.mem_map.mp hx
      have := h p hp
      cases hg : dget e p.1 with
      | none => rw [hg] at this; cases this
      | some w => exact (dget_isSome_iff _ _).mp ⟨w, hg⟩
    have hperm := subset_of_length hd he (by simpa [dkeys] using hl) hsub
    cases hg : dget d k with
    | some v =>
      have hm := dget_mem hg
      have := h _ hm
      cases hg' : dget e k with
      | none => rw [hg'] at this; cases this
      | some w =>
        rw [hg'] at this
        exact (hv _ hm _ (dget_mem hg')).mp this
    | none =>
      have : k ∉ dkeys e := fun hk => (dget_eq_none_iff _ _).mp hg (hperm.mem_iff.mpr hk)
      rw [(dget_eq_none_iff _ _).mpr this]
      trivial
  · intro h
    have hmem : ∀ k, k ∈ dkeys d ↔ k ∈ dkeys e := by
      intro k
      have := h k
      rw [← dget_isSome_iff, ← dget_isSome_iff]
      cases hg : dget d k <;> cases hg' : dget e k <;> rw [hg, hg'] at this <;> simp_all
    have hperm : (dkeys d).Perm (dkeys e) := (List.perm_ext_iff_of_nodup hd he).mpr hmem
    refine ⟨by simpa [dkeys] using hperm.length_eq, fun p hp => ?_⟩
    have := h p.1
    rw [dget_of_mem hd hp] at this
    cases hg' : dget e p.1 with
    | none => rw [hg'] at this; cases this
    | some w =>
      rw [hg'] at this
      exact (hv _ hp _ (dget_mem hg')).mpr this

theorem dictAlike_eq_iff {d e : List (κ × ν)} (hd : (dkeys d).Nodup) (he : (dkeys e).Nodup) :
    DictAlike (· = ·) d e ↔ d.Perm e := by
  constructor
  · intro h
    refine perm_of_dget hd he fun k => ?_
    have := h k
    cases hg : dget d k <;> cases hg' : dget e k <;> rw [hg, hg'] at this <;> simp_all
  · intro h k
    rw [dget_perm h hd]
    cases dget e k <;> simp

theorem dictEq_perm [BEq ν] [LawfulBEq ν] {d e : List (κ × ν)} (hd : (dkeys d).Nodup) (he : (dkeys e).Nodup) :
    dictEq (· == ·) d e = true ↔ d.Perm e := by
  rw [dictEq_iff (R := (· = ·)) hd he (fun _ _ _ _ => by simp), dictAlike_eq_iff hd he]

theorem Constraint.eq_iff {c d : Constraint} (hc : c.SetVars) (hd : d.SetVars) : c.eq d = true ↔ c.Alike d := by
  cases c <;> cases d <;> unfold Constraint.eq <;> simp only [Constraint.SetVars] at hc hd
  case nHot.nHot l s vs n l' s' vs' n' =>
    simp only [Bool.and_eq_true, beq_iff_eq, setEq_iff hc hd]
    constructor
    · rintro ⟨⟨⟨h, rfl⟩, rfl⟩, rfl⟩; exact .nHot _ _ _ h
    · rintro ⟨_, _, _, h⟩; exact ⟨⟨⟨h, rfl⟩, rfl⟩, rfl⟩
  case zeroOrOneHot.zeroOrOneHot l s vs l' s' vs' =>
    simp only [Bool.and_eq_true, beq_iff_eq, setEq_iff hc hd]
    constructor
    · rintro ⟨⟨h, rfl⟩, rfl⟩; exact .zeroOrOneHot _ _ h
    · intro h; cases h with | zeroOrOneHot _ _ h => exact ⟨⟨h, rfl⟩, rfl⟩
  case equality.equality l s v1 v2 l' s' v1' v2' =>
    simp only [Bool.and_eq_true, beq_iff_eq, setEq_iff hc.1 hd.1, setEq_iff hc.2 hd.2]
    constructor
    · rintro ⟨⟨⟨h1, h2⟩, rfl⟩, rfl⟩; exact .equality _ _ h1 h2
    · intro h; cases h with | equality _ _ h1 h2 => exact ⟨⟨⟨h1, h2⟩, rfl⟩, rfl⟩
  all_goals
    constructor
    · intro h; cases h
    · intro h; cases h

theorem LModel.eq_iff {m n : LModel} (hm : m.Proper) (hn : n.Proper) : m.eq n = true ↔ Alike m n := by
  unfold LModel.eq
  simp only [Bool.and_eq_true, beq_iff_eq, dictEq_perm hm.vars hn.vars, dictEq_perm hm.cols hn.cols,
    setEq_iff hm.deleted hn.deleted, setEq_iff hm.fixed hn.fixed,
    dictEq_iff (R := Constraint.Alike) hm.cons hn.cons
      (fun p hp q hq => Constraint.eq_iff (hm.sets p hp) (hn.sets q hq))]
  constructor
  · rintro ⟨⟨⟨⟨⟨⟨⟨⟨h1, h2⟩, h3, h4⟩, h5⟩, h6⟩, h7⟩, h8⟩, h9⟩, h10⟩
    exact ⟨h1, h2, h3, h4, h5, h6, h7, h8, h9, h10⟩
  · rintro ⟨h1, h2, h3, h4, h5, h6, h7, h8, h9, h10⟩
    exact ⟨⟨⟨⟨⟨⟨⟨⟨h1, h2⟩, h3, h4⟩, h5⟩, h6⟩, h7⟩, h8⟩, h9⟩, h10⟩

end Sawatabi
