import Verif.Props.Aggregate

/-!
# C127: when the samples of Optigan tell the vectors of the server apart
-/

namespace Sawatabi.Props

variable {p : Physical} {l : String} {d e : Sample}

/-- Two samples with the same labels in the same order that agree but for the values of one label. -/
def AgreeBut (l : String) (d e : Sample) : Prop := List.Forall₂ (fun a b => a.1 = b.1 ∧ (a.1 ≠ l → a.2 = b.2)) d e

theorem agreeBut_dset (h : AgreeBut l d e) (k : String) (v : ℤ) : AgreeBut l (dset d k v) (dset e k v) := by
  induction h with
  | nil => exact .cons ⟨rfl, fun _ => rfl⟩ .nil
  | @cons a b d e hab ht ih =>
    obtain ⟨a1, a2⟩ := a
    obtain ⟨b1, b2⟩ := b
    obtain ⟨h1, h2⟩ := hab
    simp only at h1 h2
    subst h1
    unfold dset
    split
    · exact .cons ⟨rfl, fun _ => rfl⟩ ht
    · exact .cons ⟨rfl, h2⟩ ih

theorem agreeBut_fold (z : List (String × ℤ)) (h : AgreeBut l d e) :
    AgreeBut l (z.foldl (fun d kv => dset d kv.1 kv.2) d) (z.foldl (fun d kv => dset d kv.1 kv.2) e) := by
  induction z generalizing d e with
  | nil => exact h
  | cons kv z ih => exact ih (agreeBut_dset h _ _)

theorem agreeBut_refl (d : Sample) : AgreeBut l d d := by
  induction d with
  | nil => exact .nil
  | cons a d ih => exact .cons ⟨rfl, fun _ => rfl⟩ ih

theorem agreeBut_new (d : Sample) (a b : ℤ) : AgreeBut l (dset d l a) (dset d l b) := by
  induction d with
  | nil => exact .cons ⟨rfl, fun h => absurd rfl h⟩ .nil
  | cons x d ih =>
    obtain ⟨k, v⟩ := x
    unfold dset
    split
    · next h => exact .cons ⟨rfl, fun h' => absurd h h'⟩ (agreeBut_refl d)
    · exact .cons ⟨rfl, fun _ => rfl⟩ ih

theorem agreeBut_eq (h : AgreeBut l d e) (hl : l ∉ dkeys d) : d = e := by
  induction h with
  | nil => rfl
  | @cons a b d e hab _ ih =>
    simp only [dkeys, List.map_cons, List.mem_cons, not_or] at hl
    rw [ih hl.2, Prod.ext hab.1 (hab.2 fun e => hl.1 e.symm)]

theorem agreeBut_set (h : AgreeBut l d e) (hd : (dkeys d).Nodup) (c : ℤ) : dset d l c = dset e l c := by
  induction h with
  | nil => rfl
  | @cons a b d e hab ht ih =>
    obtain ⟨a1, a2⟩ := a
    obtain ⟨b1, b2⟩ := b
    obtain ⟨h1, h2⟩ := hab
    simp only at h1 h2
    subst h1
    simp only [dkeys, List.map_cons, List.nodup_cons] at hd
    unfold dset
    split
    · next h =>
      subst h
      rw [agreeBut_eq ht hd.1]
    · next h => rw [h2 h, ih hd.2]

theorem fold_nodup (z : List (String × ℤ)) (hd : (dkeys d).Nodup) : (dkeys (z.foldl (fun d kv => dset d kv.1 kv.2) d)).Nodup := by
  induction z generalizing d with
  | nil => exact hd
  | cons kv z ih =>
    refine ih ?_
    by_cases h : kv.1 ∈ dkeys d
    · rwa [dkeys_dset_of_mem _ h]
    · rw [dkeys_dset_of_not_mem _ h]
      exact List.nodup_append.mpr ⟨hd, List.nodup_singleton _, fun a ha b hb e => h (by simp_all)⟩

/-- A repeated element stands before itself. -/
theorem repeated {ls : List String} (h : ¬ ls.Nodup) : ∃ A l B C, ls = A ++ l :: (B ++ l :: C) := by
  induction ls with
  | nil => exact absurd List.nodup_nil h
  | cons x ls ih =>
    by_cases hx : x ∈ ls
    · obtain ⟨B, C, rfl⟩ := List.append_of_mem hx
      exact ⟨[], x, B, C, rfl⟩
    · obtain ⟨A, l, B, C, rfl⟩ := ih fun hn => h (List.nodup_cons.mpr ⟨hx, hn⟩)
      exact ⟨x :: A, l, B, C, rfl⟩

/-- **C127** The samples tell the vectors of two values (bits or spins) apart exactly if the labels of the model are distinct. -/
theorem C127_distinct_iff {a b : ℤ} (hab : a ≠ b) : (p.indexToLabel.map (·.2)).Nodup ↔
    ∀ x y : List ℤ, x.length = p.indexToLabel.length → y.length = p.indexToLabel.length → (∀ v ∈ x, v = a ∨ v = b) →
      (∀ v ∈ y, v = a ∨ v = b) → decode p x = decode p y → x = y := by
  constructor
  · intro hl x y hx hy _ _ h
    rw [decode_eq hl hx, decode_eq hl hy] at h
    have := congrArg (List.map (·.2)) h
    rwa [List.map_snd_zip (by simp [hx]), List.map_snd_zip (by simp [hy])] at this
  · intro h
    by_contra hn
    obtain ⟨A, l, B, C, hls⟩ := repeated hn
    have hlen : p.indexToLabel.length = A.length + (B.length + (C.length + 1) + 1) := by
      have := congrArg List.length hls
      simpa using this
    let v (c : ℤ) : List ℤ := List.replicate A.length a ++ c :: (List.replicate B.length a ++ a :: List.replicate C.length a)
    have hv : ∀ c, (c = a ∨ c = b) → ∀ u ∈ v c, u = a ∨ u = b := by
      intro c hc u hu
      simp only [v, List.mem_append, List.mem_cons, List.mem_replicate] at hu
      rcases hu with hu | hu | hu | hu | hu
      · exact .inl hu.2
      · exact hu ▸ hc
      · exact .inl hu.2
      · exact .inl hu
      · exact .inl hu.2
    have hvl : ∀ c, (v c).length = p.indexToLabel.length := fun c => by simp [v, hlen]
    have hdec : ∀ c, decode p (v c) = (C.zip (List.replicate C.length a)).foldl (fun d kv => dset d kv.1 kv.2)
        (dset ((B.zip (List.replicate B.length a)).foldl (fun d kv => dset d kv.1 kv.2)
          (dset ((A.zip (List.replicate A.length a)).foldl (fun d kv => dset d kv.1 kv.2) []) l c)) l a) := fun c => by
      unfold decode
      rw [hls, List.zip_append (by simp), List.zip_cons_cons, List.zip_append (by simp), List.zip_cons_cons, List.foldl_append,
        List.foldl_cons, List.foldl_append, List.foldl_cons]
    have heq : decode p (v a) = decode p (v b) := by
      rw [hdec, hdec]
      congr 1
      refine agreeBut_set (agreeBut_fold _ (agreeBut_new _ _ _)) (fold_nodup _ ?_) a
      exact fold_nodup ((A.zip (List.replicate A.length a)) ++ [(l, a)]) (d := []) List.nodup_nil |> fun h => by
        rwa [List.foldl_append] at h
    have := h _ _ (hvl a) (hvl b) (hv a (.inl rfl)) (hv b (.inr rfl)) heq
    have := List.append_cancel_left this
    exact hab (List.cons.inj this).1

/-- A model with distinct labels, and one without: both sides of the equivalence occur. -/
example : (Ex.physQubo.indexToLabel.map (·.2)).Nodup ∧
    ∃ p m', (toPhysical ⟨0, fun _ => ""⟩ (fun _ _ => 0) (fun _ => "1") []).run Ex.clashes = .ok p m' ∧
      decide ((p.indexToLabel.map (·.2)).Nodup) = false :=
  ⟨by decide +kernel, _, _, rfl, by decide +kernel⟩

end Sawatabi.Props
