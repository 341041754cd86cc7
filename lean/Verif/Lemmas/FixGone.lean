import Verif.Lemmas.DeleteFix
import Verif.Lemmas.Ordered

/-!
# After `fix_variable` no active interaction has the variable
-/

namespace Sawatabi

theorem fixOne_touch {now : ℚ} {v : PVar} {q : ℚ} {s : String} {m m' : LModel} (hu : m.names.Nodup)
    (ho : AllOrdered m.rows) (h : (fixOne now v q s).run m = .ok ⟨⟩ m') :
    ∀ r' ∈ m'.rows, r'.touches v.label = true → r'.removed = true ∨ (r' ∈ m.rows ∧ r'.name ≠ s) := by
  cases hi : m.indexOf s with
  | error e =>
    unfold fixOne at h
    rw [Py.run_bind, Py.run_get] at h
    simp only at h
    rw [Py.run_bind, Py.run_liftE, hi] at h
    cases h
  | ok i =>
    obtain ⟨hlt, hnm⟩ := indexOf_ok hi
    have hr : m.rows[i]? = some m.rows[i] := List.getElem?_eq_getElem hlt
    generalize hx : m.rows[i] = r at hr hnm
    have hmem : r ∈ m.rows := hx ▸ List.getElem_mem hlt
    rw [fixOne_run now v q s m hi hr] at h
    have ho' := ho r hmem
    cases hin : r.inter with
    | lin w =>
      rw [hin] at h
      simp only at h
      have hi' : ({ m with offset := m.offset.add (((Coef.num (-1 * q)).mul r.coef).mul r.scale) } : LModel).indexOf s
          = .ok i := hi
      obtain ⟨_, hrows, _⟩ := remove_energy hi' hr h (fun _ => 0) (fun _ => 0)
      intro r' hr' _
      rw [hrows, modify_eq_map_of_unique rmRow hu hlt (by simp only [hx]; exact hnm)] at hr'
      obtain ⟨r₀, h1, rfl⟩ := List.mem_map.mp hr'
      split
      · exact .inl rfl
      · rename_i hne
        exact .inr ⟨h1, hne⟩
    | quad a b =>
      rw [hin] at h ho'
      simp only at h
      cases hk : fixKeep v (.quad a b) with
      | none => rw [hk] at h; cases h
      | some keep =>
        rw [hk] at h
        simp only at h
        split at h
        · rename_i m₁ hadd
          rw [addInteraction_run] at hadd
          split at hadd
          · cases hadd
          rename_i p hp
          obtain ⟨row, ats⟩ := p
          obtain ⟨hd, _, hnew, hc, hs, _, _, _, _, hrm', _⟩ := addChecks_ok_iff.mp hp
          obtain ⟨cols, cats, rfl⟩ := addTail_ok hadd
          have hrow : row.inter = .lin keep := by
            have := getInfo_ok_iff.mpr hd
            simp only [getInfo] at this
            injection this with this
            exact this.symm
          have hkv : keep.label ≠ v.label := by
            simp only [fixKeep] at hk
            simp only [Inter.Ordered] at ho'
            split at hk
            · rename_i h1
              cases hk
              rw [← h1]; exact (ne_of_lt ho').symm
            · split at hk
              · rename_i h1 h2
                cases hk
                exact h1
              · cases hk
          have hi' : ∀ {k : LModel}, k.rows = m.rows ++ [row] → k.indexOf s = .ok i := indexOf_append hi
          have hr' : (m.rows ++ [row])[i]? = some r := by
            rw [List.getElem?_append_left hlt]; exact hr
          have hu' : ((m.rows ++ [row]).map (·.name)).Nodup := by
            rw [List.map_append, List.nodup_append]
            refine ⟨hu, by simp, ?_⟩
            rintro x hx y hy rfl
            simp only [List.map_cons, List.map_nil, List.mem_singleton] at hy
            exact hnew (hy ▸ hx)
          obtain ⟨_, hrows, _⟩ := remove_energy (hi' rfl) hr' h (fun _ => 0) (fun _ => 0)
          have hlt' : i < (m.rows ++ [row]).length := by simp only [List.length_append]; omega
          have hnm' : (m.rows ++ [row])[i].name = s := by
            rw [List.getElem_append_left hlt, hx]; exact hnm
          intro r' hr' ht
          rw [hrows] at hr'
          rw [modify_eq_map_of_unique rmRow hu' hlt' hnm'] at hr'
          obtain ⟨r₀, h1, rfl⟩ := List.mem_map.mp hr'
          split
          · exact .inl rfl
          · rename_i hne
            rw [if_neg hne] at ht
            rcases List.mem_append.mp h1 with h1 | h1
            · exact .inr ⟨h1, hne⟩
            · simp only [List.mem_singleton] at h1
              subst h1
              exact absurd (touches_lin hrow ht) hkv
        · cases h

theorem fixLoop_touch {clk : Nat → ℚ} {v : PVar} {q : ℚ} (sel : List String) (k : Nat) {m m' : LModel}
    {P : List Row → Prop} (hP : RowClosed P) (hPu : ∀ l, P l → (l.map (·.name)).Nodup ∧ AllOrdered l)
    (hm : P m.rows)
    (h : ((sel.zipIdx k).forM fun p => fixOne (clk p.2) v q p.1).run m = .ok ⟨⟩ m') :
    ∀ r' ∈ m'.rows, r'.touches v.label = true → r'.removed = true ∨ (r' ∈ m.rows ∧ r'.name ∉ sel) := by
  induction sel generalizing k m with
  | nil =>
    simp only [List.zipIdx_nil, Py.run_forM_nil] at h
    cases h
    exact fun r' hr' _ => .inr ⟨hr', by simp⟩
  | cons s sel ih =>
    simp only [List.zipIdx_cons, Py.run_forM_cons] at h
    cases hf : (fixOne (clk k) v q s).run m with
    | error e t => rw [hf] at h; cases h
    | ok u m₁ =>
      rw [hf] at h
      simp only at h
      have hm₁ := fixOne_rows hP (clk k) v q s m hm
      rw [hf] at hm₁
      intro r' hr' ht
      rcases ih (k + 1) hm₁ h r' hr' ht with h1 | ⟨h1, h2⟩
      · exact .inl h1
      · rcases fixOne_touch (hPu _ hm).1 (hPu _ hm).2 hf r' h1 ht with h3 | ⟨h3, h4⟩
        · exact .inl h3
        · exact .inr ⟨h3, by simp [h2, h4]⟩

end Sawatabi
