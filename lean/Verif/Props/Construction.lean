import Verif.Props.Constraints

/-!
# C78: construction of constraints
-/

namespace Sawatabi.Props

/-- An optional `variables` argument that is accepted. -/
def ValidVars : Option PyVars → Prop
  | none => True
  | some a => a.Valid

/-- `v` is in the optional argument. -/
def HasVar (v : PVar) : Option PyVars → Prop
  | none => False
  | some a => a.Has v

/-- `vs` lists the variables of the argument, each once. -/
def IsSetOf (vs : List PVar) (arg : Option PyVars) : Prop := vs.Nodup ∧ ∀ v, v ∈ vs ↔ HasVar v arg

theorem varsArg_spec (arg : Option PyVars) :
    (ValidVars arg → ∃ s, (match arg with | none => pure [] | some a => checkVarsToSet a : Except Err (List PVar)) = .ok s ∧
      IsSetOf s arg) ∧
    (¬ ValidVars arg → (match arg with | none => pure [] | some a => checkVarsToSet a : Except Err (List PVar)) = .error .typeError) := by
  cases arg with
  | none => exact ⟨fun _ => ⟨[], rfl, by simp, fun v => by simp [HasVar]⟩, fun h => absurd trivial h⟩
  | some a => exact checkVarsToSet_spec a

/-- **C78**, N-hot: constructed exactly for a non-empty label, valid variables and `n ≥ 1`. -/
theorem C78_nHot (arg : Option PyVars) (n : Int) (l : String) (s : ℚ) :
    (l ≠ "" ∧ ValidVars arg ∧ 1 ≤ n → ∃ vs, mkNHot arg n l s = .ok (.nHot l s vs n.toNat) ∧ IsSetOf vs arg ∧ (n.toNat : Int) = n) ∧
    (l = "" → mkNHot arg n l s = .error .valueError) ∧
    (l ≠ "" → ¬ ValidVars arg → mkNHot arg n l s = .error .typeError) ∧
    (l ≠ "" → ValidVars arg → n ≤ 0 → mkNHot arg n l s = .error .valueError) := by
  refine ⟨fun ⟨hl, hv, hn⟩ => ?_, fun hl => ?_, fun hl hv => ?_, fun hl hv hn => ?_⟩
  · obtain ⟨vs, h1, h2⟩ := (varsArg_spec arg).1 hv
    refine ⟨vs, ?_, h2, Int.toNat_of_nonneg (by omega)⟩
    have hn' : ¬ n ≤ 0 := by omega
    unfold mkNHot checkLabel
    cases arg with
    | none => cases h1; simp only [hl, if_false, hn']; rfl
    | some a => simp only at h1; simp only [hl, if_false, hn', h1]; rfl
  · unfold mkNHot checkLabel
    simp only [hl, if_true]; rfl
  · have h1 := (varsArg_spec arg).2 hv
    unfold mkNHot checkLabel
    cases arg with
    | none => exact absurd trivial hv
    | some a => simp only at h1; simp only [hl, if_false, h1]; rfl
  · obtain ⟨vs, h1, _⟩ := (varsArg_spec arg).1 hv
    unfold mkNHot checkLabel
    cases arg with
    | none => simp only [hl, if_false, hn, if_true]; rfl
    | some a => simp only at h1; simp only [hl, if_false, h1, hn, if_true]; rfl

/-- **C78**, zero-or-one-hot. -/
theorem C78_zeroOrOneHot (arg : Option PyVars) (l : String) (s : ℚ) :
    (l ≠ "" ∧ ValidVars arg → ∃ vs, mkZeroOrOneHot arg l s = .ok (.zeroOrOneHot l s vs) ∧ IsSetOf vs arg) ∧
    (l = "" → mkZeroOrOneHot arg l s = .error .valueError) ∧
    (l ≠ "" → ¬ ValidVars arg → mkZeroOrOneHot arg l s = .error .typeError) := by
  refine ⟨fun ⟨hl, hv⟩ => ?_, fun hl => ?_, fun hl hv => ?_⟩
  · obtain ⟨vs, h1, h2⟩ := (varsArg_spec arg).1 hv
    refine ⟨vs, ?_, h2⟩
    unfold mkZeroOrOneHot checkLabel
    cases arg with
    | none => cases h1; simp only [hl, if_false]; rfl
    | some a => simp only at h1; simp only [hl, if_false, h1]; rfl
  · unfold mkZeroOrOneHot checkLabel
    simp only [hl, if_true]; rfl
  · have h1 := (varsArg_spec arg).2 hv
    unfold mkZeroOrOneHot checkLabel
    cases arg with
    | none => exact absurd trivial hv
    | some a => simp only at h1; simp only [hl, if_false, h1]; rfl

/-- **C78**, equality: the two arguments are not mixed up. -/
theorem C78_equality (arg1 arg2 : Option PyVars) (l : String) (s : ℚ) :
    (l ≠ "" ∧ ValidVars arg1 ∧ ValidVars arg2 →
      ∃ v1 v2, mkEquality arg1 arg2 l s = .ok (.equality l s v1 v2) ∧ IsSetOf v1 arg1 ∧ IsSetOf v2 arg2) ∧
    (l = "" → mkEquality arg1 arg2 l s = .error .valueError) ∧
    (l ≠ "" → ¬ (ValidVars arg1 ∧ ValidVars arg2) → mkEquality arg1 arg2 l s = .error .typeError) := by
  refine ⟨fun ⟨hl, hv1, hv2⟩ => ?_, fun hl => ?_, fun hl hv => ?_⟩
  · obtain ⟨v1, h1, h1'⟩ := (varsArg_spec arg1).1 hv1
    obtain ⟨v2, h2, h2'⟩ := (varsArg_spec arg2).1 hv2
    refine ⟨v1, v2, ?_, h1', h2'⟩
    unfold mkEquality checkLabel
    cases arg1 <;> cases arg2 <;> simp only at h1 h2 <;> simp only [hl, if_false]
    · cases h1; cases h2; rfl
    · cases h1; rw [h2]; rfl
    · cases h2; rw [h1]; rfl
    · rw [h1, h2]; rfl
  · unfold mkEquality checkLabel
    simp only [hl, if_true]; rfl
  · unfold mkEquality checkLabel
    by_cases hv1 : ValidVars arg1
    · have hv2 : ¬ ValidVars arg2 := fun h => hv ⟨hv1, h⟩
      obtain ⟨v1, h1, _⟩ := (varsArg_spec arg1).1 hv1
      have h2 := (varsArg_spec arg2).2 hv2
      cases arg2 with
      | none => exact absurd trivial hv2
      | some b =>
        cases arg1 <;> simp only at h1 h2 <;> simp only [hl, if_false]
        · rw [h2]; rfl
        · rw [h1, h2]; rfl
    · have h1 := (varsArg_spec arg1).2 hv1
      cases arg1 with
      | none => exact absurd trivial hv1
      | some a => simp only at h1; simp only [hl, if_false, h1]; rfl

example : ValidVars (some (.list [some ⟨.binary, "a"⟩, some ⟨.binary, "b"⟩, some ⟨.binary, "a"⟩])) ∧
    mkNHot (some (.list [some ⟨.binary, "a"⟩, some ⟨.binary, "b"⟩, some ⟨.binary, "a"⟩])) 1 "c" 2 =
      .ok (.nHot "c" 2 [⟨.binary, "a"⟩, ⟨.binary, "b"⟩] 1) ∧
    mkNHot none 0 "c" 2 = .error .valueError :=
  ⟨⟨by decide, by decide⟩, by decide +kernel, by decide +kernel⟩

end Sawatabi.Props
