import Verif.Lemmas.Absorb
import Verif.Lemmas.ConstraintNames

/-!
# Names in the Ising models of constraints
-/

namespace Sawatabi

/-- Splitting at the first occurrence of a character. -/
theorem char_split {x : Char} {a b c d : List Char} (ha : x ∉ a) (hc : x ∉ c) (h : a ++ x :: b = c ++ x :: d) :
    a = c ∧ b = d := by
  induction a generalizing c with
  | nil =>
    cases c with
    | nil => simpa using h
    | cons y c =>
      simp only [List.nil_append, List.cons_append, List.cons.injEq] at h
      exact absurd (by simp [← h.1]) hc
  | cons y a ih =>
    cases c with
    | nil =>
      simp only [List.nil_append, List.cons_append, List.cons.injEq] at h
      exact absurd (by simp [h.1]) ha
    | cons z c =>
      simp only [List.cons_append, List.cons.injEq] at h
      have := ih (fun hm => ha (List.mem_cons_of_mem _ hm)) (fun hm => hc (List.mem_cons_of_mem _ hm)) h.2
      exact ⟨by rw [h.1, this.1], this.2⟩

/-- The labels of an item have no space. -/
def Item.SpaceFree : Item → Prop
  | .lin v _ => ' ' ∉ v.label.toList
  | .pair v w _ => ' ' ∉ v.label.toList ∧ ' ' ∉ w.label.toList

theorem Item.base_space {it : Item} (h : it.SpaceFree) : ' ' ∉ it.base.toList := by
  have hs : ("*" : String).toList = ['*'] := rfl
  cases it with
  | lin v c => exact h
  | pair v w c =>
    simp only [Item.base, String.toList_append, hs, List.mem_append, List.mem_singleton, not_or]
    exact ⟨⟨h.1, by decide⟩, h.2⟩

theorem name_chars (b label : String) : (b ++ (" (" ++ label ++ ")")).toList = b.toList ++ ' ' :: ('(' :: (label.toList ++ [')'])) := by
  have h1 : (" (" : String).toList = [' ', '('] := rfl
  have h2 : (")" : String).toList = [')'] := rfl
  simp [String.toList_append, h1, h2]

theorem addedName_chars (env : Env) (k n : String) (t : ℚ) :
    ∃ rest, (addedName env k n t).toList = k.toList ++ ' ' :: (['f', 'r', 'o', 'm', ' '] ++ (n.toList ++ rest)) := by
  have h1 : (" from " : String).toList = ' ' :: ['f', 'r', 'o', 'm', ' '] := rfl
  refine ⟨(" (mtype additional " : String).toList ++ ((env.render t).toList ++ (")" : String).toList), ?_⟩
  simp only [addedName, String.toList_append, h1, List.append_assoc, List.cons_append]

/-- An added name tells its variable and the item. -/
theorem addedName_inj {env : Env} {k k' b b' label : String} {t t' : ℚ} (hk : ' ' ∉ k.toList) (hk' : ' ' ∉ k'.toList)
    (hb : ' ' ∉ b.toList) (hb' : ' ' ∉ b'.toList)
    (h : addedName env k (b ++ (" (" ++ label ++ ")")) t = addedName env k' (b' ++ (" (" ++ label ++ ")")) t') :
    k = k' ∧ b = b' := by
  have h := congrArg String.toList h
  obtain ⟨r, hr⟩ := addedName_chars env k (b ++ (" (" ++ label ++ ")")) t
  obtain ⟨r', hr'⟩ := addedName_chars env k' (b' ++ (" (" ++ label ++ ")")) t'
  rw [hr, hr'] at h
  obtain ⟨h1, h2⟩ := char_split hk hk' h
  have h3 := List.append_cancel_left h2
  rw [name_chars, name_chars, List.append_assoc, List.append_assoc, List.cons_append, List.cons_append] at h3
  exact ⟨String.toList_inj.mp h1, String.toList_inj.mp (char_split hb hb' h3).1⟩

/-- An added name is no name of an item. -/
theorem addedName_ne_item {env : Env} {k n b label : String} {t : ℚ} (hk : ' ' ∉ k.toList) (hb : ' ' ∉ b.toList) :
    b ++ (" (" ++ label ++ ")") ≠ addedName env k n t := by
  intro h
  have h := congrArg String.toList h
  obtain ⟨r, hr⟩ := addedName_chars env k n t
  rw [hr, name_chars] at h
  have := (char_split hb hk h).2
  simp at this

theorem Item.row_quad {now : ℚ} {label : String} {it : Item} {v w : PVar} (h : (it.row now label).inter = .quad v w) :
    ∃ c, it = .pair v w c ∨ it = .pair w v c := by
  cases it with
  | lin x c => cases h
  | pair x y c =>
    simp only [Item.row] at h
    split at h
    · cases h; exact ⟨c, .inl rfl⟩
    · cases h; exact ⟨c, .inr rfl⟩

/-- The names of the converted model are distinct. -/
theorem item_converted_names {env : Env} {clk : Nat → ℚ} {now : ℚ} {label : String} {its : List Item}
    (hn : (its.map (·.name label)).Nodup) (hp : ∀ it ∈ its, it.Proper) (hs : ∀ it ∈ its, it.SpaceFree) :
    ((its.map (Item.row now label)).map (·.name) ++
      addedNames env clk (activeBody 2 (its.map (Item.row now label))) 0).Nodup := by
  have hnames : (its.map (Item.row now label)).map (·.name) = its.map (·.name label) := by
    rw [List.map_map]; rfl
  have hmem : ∀ r ∈ activeBody 2 (its.map (Item.row now label)), ∃ it ∈ its, it.row now label = r := by
    intro r hr
    exact List.mem_map.mp (List.mem_filter.mp hr).1
  have hact : ((activeBody 2 (its.map (Item.row now label))).map (·.name)).Nodup := by
    have : ((its.map (Item.row now label)).map (·.name)).Nodup := by rw [hnames]; exact hn
    exact (List.filter_sublist.map _).nodup this
  generalize activeBody 2 (its.map (Item.row now label)) = js at hmem hact
  -- the form of an added name
  have hone : ∀ it ∈ its, ∀ (t1 t2 : ℚ) (x : String),
      x ∈ (match (it.row now label).inter with
        | .lin _ => ([] : List String)
        | .quad v w => [addedName env v.label (it.row now label).name t1, addedName env w.label (it.row now label).name t2]) →
      ∃ k t, ' ' ∉ k.toList ∧ x = addedName env k (it.row now label).name t := by
    intro it hit t1 t2 x hx
    have hsp := hs it hit
    cases hi : (it.row now label).inter with
    | lin v => simp [hi] at hx
    | quad v w =>
      obtain ⟨c, hc⟩ := Item.row_quad hi
      have hvw : ' ' ∉ v.label.toList ∧ ' ' ∉ w.label.toList := by
        rcases hc with rfl | rfl
        · exact hsp
        · exact ⟨hsp.2, hsp.1⟩
      simp only [hi, List.mem_cons, List.not_mem_nil, or_false] at hx
      rcases hx with rfl | rfl
      · exact ⟨_, _, hvw.1, rfl⟩
      · exact ⟨_, _, hvw.2, rfl⟩
  rw [hnames, List.nodup_append]
  refine ⟨hn, ?_, ?_⟩
  · -- added names among themselves
    have hz : ((js.zipIdx 0).map fun p => p.1.name).Nodup := by
      have : ((js.zipIdx 0).map fun p => p.1.name) = js.map (·.name) := by
        conv_rhs => rw [← List.zipIdx_map_fst 0 js]
        rw [List.map_map]
        rfl
      rw [this]
      exact hact
    unfold addedNames
    refine nodup_flatMap' (g := fun p => p.1.name) hz ?_ ?_
    · rintro ⟨r, i⟩ hr
      obtain ⟨it, hit, rfl⟩ := hmem r (List.fst_mem_of_mem_zipIdx hr)
      cases hi : (it.row now label).inter with
      | lin v => simp [hi]
      | quad v w =>
        obtain ⟨c, hc⟩ := Item.row_quad hi
        have hsp := hs it hit
        have hpr := hp it hit
        have hne : v.label ≠ w.label := by
          rcases hc with rfl | rfl
          · exact hpr
          · exact Ne.symm hpr
        have hvw : ' ' ∉ v.label.toList ∧ ' ' ∉ w.label.toList := by
          rcases hc with rfl | rfl
          · exact hsp
          · exact ⟨hsp.2, hsp.1⟩
        simp only [hi, List.nodup_cons, List.mem_singleton, List.not_mem_nil, not_false_eq_true, List.nodup_nil, and_true]
        intro h
        have hnm : (it.row now label).name = it.base ++ (" (" ++ label ++ ")") := Item.name_base label it
        rw [hnm] at h
        exact hne (addedName_inj hvw.1 hvw.2 (Item.base_space hsp) (Item.base_space hsp) h).1
    · rintro ⟨r, i⟩ hr ⟨r', i'⟩ hr' hne x hx hx'
      obtain ⟨it, hit, rfl⟩ := hmem r (List.fst_mem_of_mem_zipIdx hr)
      obtain ⟨it', hit', rfl⟩ := hmem r' (List.fst_mem_of_mem_zipIdx hr')
      obtain ⟨k, t, hk, h1⟩ := hone it hit _ _ _ hx
      obtain ⟨k', t', hk', h2⟩ := hone it' hit' _ _ _ hx'
      have h := h1.symm.trans h2
      have hnm : (it.row now label).name = it.base ++ (" (" ++ label ++ ")") := Item.name_base label it
      have hnm' : (it'.row now label).name = it'.base ++ (" (" ++ label ++ ")") := Item.name_base label it'
      rw [hnm, hnm'] at h
      have hb := (addedName_inj hk hk' (Item.base_space (hs it hit)) (Item.base_space (hs it' hit')) h).2
      exact hne (by rw [hnm, hnm', hb])
  · rintro a ha b hb rfl
    obtain ⟨it, hit, rfl⟩ := List.mem_map.mp ha
    obtain ⟨⟨r, i⟩, hr, hx⟩ := List.mem_flatMap.mp hb
    obtain ⟨it', hit', rfl⟩ := hmem r (List.fst_mem_of_mem_zipIdx hr)
    obtain ⟨k, t, hk, hx⟩ := hone it' hit' _ _ _ hx
    rw [Item.name_base] at hx
    exact addedName_ne_item hk (Item.base_space (hs it hit)) hx

end Sawatabi
