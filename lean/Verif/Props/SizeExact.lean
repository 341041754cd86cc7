import Verif.Props.Variables
import Verif.Props.Equality

/-!
# What `get_size` returns

C16 for all histories that register arrays by name and shape: the count in all cases, and when it is the number of the
variables that are neither deleted nor fixed.
-/

namespace Sawatabi.Props

variable {m : LModel} {env : Env}

/-- Histories in which arrays are registered by name and shape. The variables of constraints are sets. -/
def ByShape (m : LModel) (op : Op) : Prop := SetArgs m op ∧ ∀ a, op ≠ .variablesArray a

theorem byShape_varsOk (hm : Made env ByShape m) : VarsOk m := by
  induction hm with
  | new mt id => exact new_varsOk mt id
  | step m op h hp ho ih iho =>
    exact step_varsOk env op m ih hp.2 fun clk o e => iho clk o e

theorem byShape_any (hm : Made env ByShape m) : Made env SetArgs m := by
  induction hm with
  | new mt id => exact .new mt id
  | step m op h hp ho ih iho => exact .step m op ih hp.1 iho

theorem length_split {α : Type} (l : List α) (p : α → Prop) [DecidablePred p] :
    (l.filter fun x => p x).length + (l.filter fun x => ¬ p x).length = l.length := by
  induction l with
  | nil => rfl
  | cons a l ih =>
    by_cases h : p a
    · rw [List.filter_cons_of_pos (by simpa using h), List.filter_cons_of_neg (by simpa using h)]
      simp only [List.length_cons]
      omega
    · rw [List.filter_cons_of_neg (by simpa using h), List.filter_cons_of_pos (by simpa using h)]
      simp only [List.length_cons]
      omega

theorem length_filter_swap {l d : List String} (hl : l.Nodup) (hd : d.Nodup) (p : String → Prop) [DecidablePred p] :
    (l.filter fun x => x ∈ d ∧ p x).length = (d.filter fun x => x ∈ l ∧ p x).length := by
  apply List.Perm.length_eq
  rw [List.perm_ext_iff_of_nodup (hl.filter _) (hd.filter _)]
  intro x
  simp only [List.mem_filter, decide_eq_true_eq]
  tauto

theorem size_count {l d f : List String} (hl : l.Nodup) (hd : d.Nodup) (hf : f.Nodup) :
    l.length + (l.filter fun x => x ∈ d ∧ x ∈ f).length + (d.filter fun x => x ∉ l).length + (f.filter fun x => x ∉ l).length =
      (l.filter fun x => x ∉ d ∧ x ∉ f).length + d.length + f.length := by
  have h1 := length_split d fun x => x ∈ l
  have h2 := length_split f fun x => x ∈ l
  have h3 := length_filter_swap hl hd fun _ => True
  have h4 := length_filter_swap hl hf fun _ => True
  simp only [and_true] at h3 h4
  have h5 : l.length + (l.filter fun x => x ∈ d ∧ x ∈ f).length =
      (l.filter fun x => x ∉ d ∧ x ∉ f).length + (l.filter fun x => x ∈ d).length + (l.filter fun x => x ∈ f).length := by
    clear h1 h2 h3 h4 hl hd hf
    induction l with
    | nil => rfl
    | cons a l ih =>
      by_cases hd : a ∈ d <;> by_cases hf : a ∈ f <;>
        simp only [List.filter_cons, hd, hf, not_true_eq_false, not_false_eq_true, and_self, and_true, and_false,
          decide_true, decide_false, if_true, if_false, List.length_cons, Bool.false_eq_true] <;> omega
  omega

/-- **C16**, in all cases: what `get_size` returns falls short of the number of alive variables by the variables that are
both deleted and fixed, the deleted labels that are no variables, and the fixed labels that are no variables. -/
theorem C16_exact (hm : Made env ByShape m) (hl : m.allLabels.Nodup) :
    m.size = (m.allLabels.filter fun l => l ∉ m.deleted ∧ l ∉ m.fixed).length
      - (m.allLabels.filter fun l => l ∈ m.deleted ∧ l ∈ m.fixed).length
      - (m.deleted.filter fun l => l ∉ m.allLabels).length - (m.fixed.filter fun l => l ∉ m.allLabels).length := by
  have hp := made_proper (byShape_any hm)
  have := size_count hl hp.deleted hp.fixed
  simp only [LModel.size, allSize_eq (byShape_varsOk hm)]
  omega

/-- **C16**: it is the number of alive variables exactly if no variable is both deleted and fixed, and only variables of
the model are. -/
theorem C16_size_iff (hm : Made env ByShape m) (hl : m.allLabels.Nodup) :
    m.size = ((m.allLabels.filter fun l => l ∉ m.deleted ∧ l ∉ m.fixed).length : Int) ↔
      (∀ l ∈ m.allLabels, ¬(l ∈ m.deleted ∧ l ∈ m.fixed)) ∧ (∀ l ∈ m.deleted, l ∈ m.allLabels) ∧ ∀ l ∈ m.fixed, l ∈ m.allLabels := by
  rw [C16_exact hm hl]
  have h1 : (∀ l ∈ m.allLabels, ¬(l ∈ m.deleted ∧ l ∈ m.fixed)) ↔
      (m.allLabels.filter fun l => l ∈ m.deleted ∧ l ∈ m.fixed).length = 0 := by
    rw [List.length_eq_zero_iff, List.filter_eq_nil_iff]
    simp only [decide_eq_true_eq]
  have h2 (d : List String) : (∀ l ∈ d, l ∈ m.allLabels) ↔ (d.filter fun l => l ∉ m.allLabels).length = 0 := by
    rw [List.length_eq_zero_iff, List.filter_eq_nil_iff]
    simp only [decide_eq_true_eq, not_not]
  rw [h1, h2, h2]
  omega

/-- A history with a variable that is deleted and fixed, and a fixed label that is no variable. -/
example : ∃ m, Made ⟨0, fun _ => ""⟩ ByShape m ∧ m.allLabels.Nodup ∧ m.deleted = ["x[0]"] ∧ m.fixed = ["x[0]", "x[1]"] ∧
    m.allLabels = ["x[0]", "y[0]"] ∧ m.size = -1 := by
  refine ⟨_, .step _ (.variables "y" [1]) (.step _ (.fix (fun _ => 0) Ex.x1 (.num 1)) (.step _ (.fix (fun _ => 0) Ex.x0 (.num 1))
    (.step _ (.delete Ex.x0) (.step _ (.variables "x" [1]) (.new .ising "1") ?_ ?_) ?_ ?_) ?_ ?_) ?_ ?_) ?_ ?_,
    by decide, by decide, by decide, by decide, by decide⟩ <;> intros <;> simp_all [ByShape, SetArgs]

end Sawatabi.Props
