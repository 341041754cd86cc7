import Verif.Lemmas.Constraint

/-!
# Names and success of the models of constraints
-/

namespace Sawatabi

theorem String.append_right_inj' {a b s : String} (h : a ++ s = b ++ s) : a = b := by
  have := congrArg String.toList h
  rw [String.toList_append, String.toList_append] at this
  exact String.toList_inj.mp (List.append_cancel_right this)

/-- Splitting at the first star. -/
theorem star_split {a b c d : List Char} (ha : '*' ∉ a) (hc : '*' ∉ c) (h : a ++ '*' :: b = c ++ '*' :: d) :
    a = c ∧ b = d := by
  induction a generalizing c with
  | nil =>
    cases c with
    | nil => simpa using h
    | cons x c =>
      simp only [List.nil_append, List.cons_append, List.cons.injEq] at h
      exact absurd (by simp [← h.1]) hc
  | cons x a ih =>
    cases c with
    | nil =>
      simp only [List.nil_append, List.cons_append, List.cons.injEq] at h
      exact absurd (by simp [h.1]) ha
    | cons y c =>
      simp only [List.cons_append, List.cons.injEq] at h
      have := ih (fun hm => ha (List.mem_cons_of_mem _ hm)) (fun hm => hc (List.mem_cons_of_mem _ hm)) h.2
      exact ⟨by rw [h.1, this.1], this.2⟩

/-- No star in a label. -/
def StarFree (v : PVar) : Prop := '*' ∉ v.label.toList

instance : DecidablePred StarFree := fun v => by unfold StarFree; infer_instance

/-- The labels an item is about. -/
def Item.key : Item → String × Option String
  | .lin v _ => (v.label, none)
  | .pair v w _ => (v.label, some w.label)

/-- The variables of an item have no star. -/
def Item.StarFree : Item → Prop
  | .lin v _ => Sawatabi.StarFree v
  | .pair v w _ => Sawatabi.StarFree v ∧ Sawatabi.StarFree w

/-- The part of the name before the label of the constraint. -/
def Item.base : Item → String
  | .lin v _ => v.label
  | .pair v w _ => v.label ++ "*" ++ w.label

theorem Item.name_base (label : String) (it : Item) : it.name label = it.base ++ (" (" ++ label ++ ")") := by
  cases it <;> simp only [Item.name, Item.base, String.append_assoc]

theorem Item.name_inj {label : String} {a b : Item} (ha : a.StarFree) (hb : b.StarFree)
    (h : a.name label = b.name label) : a.key = b.key := by
  rw [Item.name_base, Item.name_base] at h
  have h := congrArg String.toList (String.append_right_inj' h)
  have hs : ("*" : String).toList = ['*'] := rfl
  cases a with
  | lin v c =>
    cases b with
    | lin w d => simp only [Item.key, String.toList_inj.mp h, Item.base] at h ⊢
                 rw [String.toList_inj.mp h]
    | pair w x d =>
      exfalso
      simp only [Item.base, String.toList_append, hs] at h
      apply ha
      rw [h]
      simp
  | pair v x c =>
    cases b with
    | lin w d =>
      exfalso
      simp only [Item.base, String.toList_append, hs] at h
      apply hb
      rw [← h]
      simp
    | pair w y d =>
      simp only [Item.base, String.toList_append, List.append_assoc, hs, List.cons_append, List.nil_append] at h
      have := star_split ha.1 hb.1 h
      simp only [Item.key, String.toList_inj.mp this.1, String.toList_inj.mp this.2]

theorem Item.names_nodup {label : String} {its : List Item} (hs : ∀ it ∈ its, it.StarFree)
    (hk : (its.map Item.key).Nodup) : (its.map (·.name label)).Nodup := by
  induction its with
  | nil => simp
  | cons a its ih =>
    rw [List.map_cons, List.nodup_cons] at hk ⊢
    refine ⟨?_, ih (fun it h => hs it (by simp [h])) hk.2⟩
    intro hm
    obtain ⟨b, hb, hab⟩ := List.mem_map.mp hm
    apply hk.1
    rw [Item.name_inj (hs a (by simp)) (hs b (by simp [hb])) hab.symm]
    exact List.mem_map_of_mem hb

/-- The keys of the pairs from one variable. -/
theorem pairItems_keys (c : ℚ) (vs : List PVar) (v : PVar) :
    (pairItems c vs v).map Item.key = ((vs.map (·.label)).filter (v.label < ·)).map fun l => (v.label, some l) := by
  unfold pairItems
  rw [List.map_map, List.filter_map, List.map_map]
  rfl

theorem nodup_flatMap' {α β : Type} {l : List α} {f : α → List β} {g : α → String} (hl : (l.map g).Nodup)
    (h1 : ∀ a ∈ l, (f a).Nodup) (h2 : ∀ a ∈ l, ∀ b ∈ l, g a ≠ g b → ∀ x ∈ f a, x ∉ f b) : (l.flatMap f).Nodup := by
  induction l with
  | nil => simp
  | cons a l ih =>
    rw [List.map_cons, List.nodup_cons] at hl
    rw [List.flatMap_cons, List.nodup_append]
    refine ⟨h1 a (by simp), ih hl.2 (fun b hb => h1 b (by simp [hb]))
      (fun b hb c hc => h2 b (by simp [hb]) c (by simp [hc])), ?_⟩
    rintro x hx y hy rfl
    obtain ⟨b, hb, hxb⟩ := List.mem_flatMap.mp hy
    refine h2 a (by simp) b (by simp [hb]) ?_ x hx hxb
    intro hab
    exact hl.1 (hab ▸ List.mem_map_of_mem hb)

theorem nodup_map_pair {l : List String} (hl : l.Nodup) (k : String) :
    (l.map fun x => ((k, some x) : String × Option String)).Nodup := by
  apply hl.map
  intro a b h
  simpa using h

theorem pairItems_mem {c : ℚ} {vs : List PVar} {v : PVar} {it : Item} (h : it ∈ pairItems c vs v) :
    ∃ w ∈ vs, v.label < w.label ∧ it = .pair v w c := by
  unfold pairItems at h
  obtain ⟨w, hw, rfl⟩ := List.mem_map.mp h
  rw [List.mem_filter] at hw
  exact ⟨w, hw.1, by simpa using hw.2, rfl⟩

theorem nHot_good {l : String} {s : ℚ} {vs : List PVar} {n : Nat} (hn : (vs.map (·.label)).Nodup)
    (hs : ∀ v ∈ vs, StarFree v) : (Constraint.nHot l s vs n).Good := by
  constructor
  · apply Item.names_nodup
    · intro it hit
      simp only [Constraint.items] at hit
      obtain ⟨v, hv, hm⟩ := List.mem_flatMap.mp hit
      rcases List.mem_cons.mp hm with rfl | hm
      · exact hs v hv
      · obtain ⟨w, hw, _, rfl⟩ := pairItems_mem hm
        exact ⟨hs v hv, hs w hw⟩
    · simp only [Constraint.items, List.map_flatMap, List.map_cons, pairItems_keys, Item.key]
      apply nodup_flatMap' hn
      · intro v _
        rw [List.nodup_cons]
        refine ⟨by simp, nodup_map_pair (hn.filter _) _⟩
      · intro a _ b _ hab x hx hxb
        apply hab
        have ha : x.1 = a.label := by
          rcases List.mem_cons.mp hx with rfl | hx
          · rfl
          · obtain ⟨y, _, rfl⟩ := List.mem_map.mp hx
            rfl
        have hb : x.1 = b.label := by
          rcases List.mem_cons.mp hxb with rfl | hx
          · rfl
          · obtain ⟨y, _, rfl⟩ := List.mem_map.mp hx
            rfl
        rw [← ha, hb]
  · intro it hit
    simp only [Constraint.items] at hit
    obtain ⟨v, hv, hm⟩ := List.mem_flatMap.mp hit
    rcases List.mem_cons.mp hm with rfl | hm
    · trivial
    · obtain ⟨w, hw, hlt, rfl⟩ := pairItems_mem hm
      exact ne_of_lt hlt

theorem pairs_keys_nodup {c : ℚ} {vs : List PVar} (hn : (vs.map (·.label)).Nodup) :
    ((vs.flatMap (pairItems c vs)).map Item.key).Nodup := by
  simp only [List.map_flatMap, pairItems_keys]
  apply nodup_flatMap' hn
  · intro v _
    exact nodup_map_pair (hn.filter _) _
  · intro a _ b _ hab x hx hxb
    apply hab
    obtain ⟨y, _, rfl⟩ := List.mem_map.mp hx
    obtain ⟨z, _, h⟩ := List.mem_map.mp hxb
    exact (congrArg Prod.fst h).symm

theorem zeroOrOneHot_good {l : String} {s : ℚ} {vs : List PVar} (hn : (vs.map (·.label)).Nodup)
    (hs : ∀ v ∈ vs, StarFree v) : (Constraint.zeroOrOneHot l s vs).Good := by
  constructor
  · apply Item.names_nodup
    · intro it hit
      simp only [Constraint.items] at hit
      obtain ⟨v, hv, hm⟩ := List.mem_flatMap.mp hit
      obtain ⟨w, hw, _, rfl⟩ := pairItems_mem hm
      exact ⟨hs v hv, hs w hw⟩
    · exact pairs_keys_nodup hn
  · intro it hit
    simp only [Constraint.items] at hit
    obtain ⟨v, hv, hm⟩ := List.mem_flatMap.mp hit
    obtain ⟨w, hw, hlt, rfl⟩ := pairItems_mem hm
    exact ne_of_lt hlt

theorem sunion_disjoint {v1 v2 : List PVar} (h2 : v2.Nodup) (hd : ∀ v ∈ v2, v ∉ v1) : sunion v1 v2 = v1 ++ v2 := by
  unfold sunion
  induction v2 generalizing v1 with
  | nil => simp
  | cons a v2 ih =>
    rw [List.nodup_cons] at h2
    have ha : sadd v1 a = v1 ++ [a] := by
      unfold sadd
      rw [if_neg (hd a (by simp))]
    rw [List.foldl_cons, ha, ih h2.2]
    · simp
    · intro v hv hm
      rcases List.mem_append.mp hm with hm | hm
      · exact hd v (by simp [hv]) hm
      · simp only [List.mem_singleton] at hm
        exact h2.1 (hm ▸ hv)

theorem equality_good {l : String} {s : ℚ} {v1 v2 : List PVar} (hn : ((v1 ++ v2).map (·.label)).Nodup)
    (hs : ∀ v ∈ v1 ++ v2, StarFree v) : (Constraint.equality l s v1 v2).Good := by
  have hnn := hn
  rw [List.map_append, List.nodup_append] at hn
  obtain ⟨h1, h2, hd⟩ := hn
  have hu : sunion v1 v2 = v1 ++ v2 := by
    apply sunion_disjoint h2.of_map
    intro v hv hv'
    exact hd v.label (List.mem_map_of_mem hv') v.label (List.mem_map_of_mem hv) rfl
  have hs1 : ∀ v ∈ v1, StarFree v := fun v h => hs v (by simp [h])
  have hs2 : ∀ v ∈ v2, StarFree v := fun v h => hs v (by simp [h])
  have hfst : ∀ (c : ℚ) (vs : List PVar) (it : Item), it ∈ vs.flatMap (pairItems c vs) →
      ∃ v ∈ vs, ∃ w ∈ vs, v.label < w.label ∧ it = .pair v w c := by
    intro c vs it hit
    obtain ⟨v, hv, hm⟩ := List.mem_flatMap.mp hit
    obtain ⟨w, hw, hlt, rfl⟩ := pairItems_mem hm
    exact ⟨v, hv, w, hw, hlt, rfl⟩
  have hcross : ∀ it, it ∈ (v1.flatMap fun v => v2.map fun w => Item.pair v w (2 * s)) →
      ∃ v ∈ v1, ∃ w ∈ v2, it = .pair v w (2 * s) := by
    intro it hit
    obtain ⟨v, hv, hm⟩ := List.mem_flatMap.mp hit
    obtain ⟨w, hw, rfl⟩ := List.mem_map.mp hm
    exact ⟨v, hv, w, hw, rfl⟩
  constructor
  · apply Item.names_nodup
    · intro it hit
      simp only [Constraint.items, List.mem_append] at hit
      rcases hit with ((hit | hit) | hit) | hit
      · obtain ⟨v, hv, rfl⟩ := List.mem_map.mp hit
        rw [hu] at hv
        exact hs v hv
      · obtain ⟨v, hv, w, hw, _, rfl⟩ := hfst _ _ _ hit
        exact ⟨hs1 v hv, hs1 w hw⟩
      · obtain ⟨v, hv, w, hw, _, rfl⟩ := hfst _ _ _ hit
        exact ⟨hs2 v hv, hs2 w hw⟩
      · obtain ⟨v, hv, w, hw, rfl⟩ := hcross _ hit
        exact ⟨hs1 v hv, hs2 w hw⟩
    · simp only [Constraint.items, List.map_append]
      rw [List.nodup_append, List.nodup_append, List.nodup_append]
      refine ⟨⟨⟨?_, pairs_keys_nodup h1, ?_⟩, pairs_keys_nodup h2, ?_⟩, ?_, ?_⟩
      · rw [hu, List.map_map]
        have : (Item.key ∘ fun v => Item.lin v (-1 * s)) = (fun l : String => ((l, none) : String × Option String)) ∘
            (fun v : PVar => v.label) := rfl
        rw [this, ← List.map_map]
        apply hnn.map
        intro a b h
        simpa using h
      · rintro x hx y hy rfl
        obtain ⟨_, hi, rfl⟩ := List.mem_map.mp hx
        obtain ⟨v, _, rfl⟩ := List.mem_map.mp hi
        obtain ⟨_, hj, h⟩ := List.mem_map.mp hy
        obtain ⟨a, _, b, _, _, rfl⟩ := hfst _ _ _ hj
        simp [Item.key] at h
      · rintro x hx y hy rfl
        obtain ⟨_, hj, h⟩ := List.mem_map.mp hy
        obtain ⟨a, ha, b, _, _, rfl⟩ := hfst _ _ _ hj
        rcases List.mem_append.mp hx with hx | hx
        · obtain ⟨_, hi, rfl⟩ := List.mem_map.mp hx
          obtain ⟨v, _, rfl⟩ := List.mem_map.mp hi
          simp [Item.key] at h
        · obtain ⟨_, hi, rfl⟩ := List.mem_map.mp hx
          obtain ⟨v, hv, w, _, _, rfl⟩ := hfst _ _ _ hi
          simp only [Item.key, Prod.mk.injEq] at h
          exact hd v.label (List.mem_map_of_mem hv) a.label (List.mem_map_of_mem ha) h.1.symm
      · simp only [List.map_flatMap, List.map_map]
        apply nodup_flatMap' h1
        · intro v _
          have : (Item.key ∘ fun w => Item.pair v w (2 * s)) =
              (fun l : String => ((v.label, some l) : String × Option String)) ∘ (fun w : PVar => w.label) := rfl
          rw [this, ← List.map_map]
          exact nodup_map_pair h2 _
        · intro a _ b _ hab x hx hxb
          apply hab
          obtain ⟨y, _, rfl⟩ := List.mem_map.mp hx
          obtain ⟨z, _, h⟩ := List.mem_map.mp hxb
          exact (congrArg Prod.fst h).symm
      · rintro x hx y hy rfl
        obtain ⟨_, hj, h⟩ := List.mem_map.mp hy
        obtain ⟨a, ha, b, hb, rfl⟩ := hcross _ hj
        rcases List.mem_append.mp hx with hx | hx
        · rcases List.mem_append.mp hx with hx | hx
          · obtain ⟨_, hi, rfl⟩ := List.mem_map.mp hx
            obtain ⟨v, _, rfl⟩ := List.mem_map.mp hi
            simp [Item.key] at h
          · obtain ⟨_, hi, rfl⟩ := List.mem_map.mp hx
            obtain ⟨v, hv, w, hw, _, rfl⟩ := hfst _ _ _ hi
            simp only [Item.key, Prod.mk.injEq, Option.some.injEq] at h
            exact hd w.label (List.mem_map_of_mem hw) b.label (List.mem_map_of_mem hb) h.2.symm
        · obtain ⟨_, hi, rfl⟩ := List.mem_map.mp hx
          obtain ⟨v, hv, w, hw, _, rfl⟩ := hfst _ _ _ hi
          simp only [Item.key, Prod.mk.injEq, Option.some.injEq] at h
          exact hd a.label (List.mem_map_of_mem ha) v.label (List.mem_map_of_mem hv) h.1
  · intro it hit
    simp only [Constraint.items, List.mem_append] at hit
    rcases hit with ((hit | hit) | hit) | hit
    · obtain ⟨v, hv, rfl⟩ := List.mem_map.mp hit
      trivial
    · obtain ⟨v, hv, w, hw, hlt, rfl⟩ := hfst _ _ _ hit
      exact ne_of_lt hlt
    · obtain ⟨v, hv, w, hw, hlt, rfl⟩ := hfst _ _ _ hit
      exact ne_of_lt hlt
    · obtain ⟨v, hv, w, hw, rfl⟩ := hcross _ hit
      exact hd v.label (List.mem_map_of_mem hv) w.label (List.mem_map_of_mem hw)

/-! ## Energies -/

theorem binary_sq {σ : Assign} (hb : σ.IsBinary) (vs : List PVar) :
    (vs.map fun v => σ v.label * σ v.label).sum = total σ vs := by
  unfold total
  congr 1
  apply List.map_congr_left
  intro v _
  rcases hb v.label with h | h <;> rw [h] <;> norm_num

/-- Sum of the pairs. -/
def pairSum (σ : Assign) (vs : List PVar) : ℚ :=
  (vs.map fun v => (vs.map fun w => if v.label < w.label then σ v.label * σ w.label else 0).sum).sum

theorem pairSum_eq {σ : Assign} (hb : σ.IsBinary) {vs : List PVar} (hn : (vs.map (·.label)).Nodup) :
    2 * pairSum σ vs = total σ vs * total σ vs - total σ vs := by
  have := pairs_square σ vs hn
  rw [binary_sq hb] at this
  unfold pairSum
  linarith

theorem sum_pairs (σ : Assign) (c : ℚ) (vs : List PVar) :
    ((vs.flatMap (pairItems c vs)).map (Item.term σ)).sum = c * pairSum σ vs := by
  unfold pairSum
  rw [List.map_flatMap, sum_flatMap, ← sum_map_mul_left']
  congr 1
  apply List.map_congr_left
  intro v _
  rw [sum_pairItems, ← sum_map_mul_left']
  congr 1
  apply List.map_congr_left
  intro w _
  split <;> ring

theorem nHot_terms (σ : Assign) (l : String) (s : ℚ) (vs : List PVar) (n : Nat) :
    ((Constraint.nHot l s vs n).items.map (Item.term σ)).sum =
      (-1 * s * (1 - 2 * n)) * total σ vs + (-2 * s) * pairSum σ vs := by
  simp only [Constraint.items]
  unfold pairSum total
  rw [List.map_flatMap, sum_flatMap, ← sum_map_mul_left', ← sum_map_mul_left', ← sum_map_add']
  congr 1
  apply List.map_congr_left
  intro v _
  rw [List.map_cons, List.sum_cons, sum_pairItems, ← sum_map_mul_left']
  congr 2
  apply List.map_congr_left
  intro w _
  split <;> ring

theorem nHot_sum {σ : Assign} (hb : σ.IsBinary) (l : String) (s : ℚ) {vs : List PVar} (n : Nat)
    (hn : (vs.map (·.label)).Nodup) :
    -((Constraint.nHot l s vs n).items.map (Item.term σ)).sum = s * ((total σ vs - n) ^ 2 - n ^ 2) := by
  have hp := pairSum_eq hb hn
  rw [nHot_terms]
  linear_combination s * hp

theorem zeroOrOneHot_sum {σ : Assign} (hb : σ.IsBinary) (l : String) (s : ℚ) {vs : List PVar}
    (hn : (vs.map (·.label)).Nodup) :
    -((Constraint.zeroOrOneHot l s vs).items.map (Item.term σ)).sum = s * (total σ vs * (total σ vs - 1)) := by
  have hp := pairSum_eq hb hn
  simp only [Constraint.items]
  rw [sum_pairs]
  linear_combination s * hp

theorem sum_cross (σ : Assign) (c : ℚ) (v1 v2 : List PVar) :
    ((v1.flatMap fun v => v2.map fun w => Item.pair v w c).map (Item.term σ)).sum =
      c * (total σ v1 * total σ v2) := by
  unfold total
  rw [List.map_flatMap, sum_flatMap]
  have : ∀ v : PVar, ((v2.map fun w => Item.pair v w c).map (Item.term σ)).sum =
      (c * (v2.map fun w => σ w.label).sum) * σ v.label := by
    intro v
    rw [List.map_map, mul_assoc, mul_comm _ (σ v.label), ← mul_assoc, ← sum_map_mul_left']
    congr 1
    apply List.map_congr_left
    intro w _
    simp only [Function.comp, Item.term]
    ring
  simp only [this]
  rw [sum_map_mul_left']
  ring

theorem equality_terms {σ : Assign} {l : String} {s : ℚ} {v1 v2 : List PVar} (hn : ((v1 ++ v2).map (·.label)).Nodup) :
    ((Constraint.equality l s v1 v2).items.map (Item.term σ)).sum =
      (-1 * s) * (total σ v1 + total σ v2) + (-2 * s) * (pairSum σ v1 + pairSum σ v2) +
        (2 * s) * (total σ v1 * total σ v2) := by
  rw [List.map_append, List.nodup_append] at hn
  obtain ⟨h1, h2, hd⟩ := hn
  have hu : sunion v1 v2 = v1 ++ v2 := by
    apply sunion_disjoint h2.of_map
    intro v hv hv'
    exact hd v.label (List.mem_map_of_mem hv') v.label (List.mem_map_of_mem hv) rfl
  simp only [Constraint.items, List.map_append, List.sum_append, sum_pairs, sum_cross, hu]
  have hlin : ∀ vs : List PVar, ((vs.map fun v => Item.lin v (-1 * s)).map (Item.term σ)).sum =
      (-1 * s) * total σ vs := by
    intro vs
    unfold total
    rw [List.map_map, ← sum_map_mul_left']
    rfl
  rw [hlin, hlin]
  ring

theorem equality_sum {σ : Assign} (hb : σ.IsBinary) (l : String) (s : ℚ) {v1 v2 : List PVar}
    (hn : ((v1 ++ v2).map (·.label)).Nodup) :
    -((Constraint.equality l s v1 v2).items.map (Item.term σ)).sum = s * (total σ v1 - total σ v2) ^ 2 := by
  rw [equality_terms hn]
  rw [List.map_append, List.nodup_append] at hn
  obtain ⟨h1, h2, hd⟩ := hn
  have hp1 := pairSum_eq hb h1
  have hp2 := pairSum_eq hb h2
  linear_combination s * hp1 + s * hp2

/-! ## Permutations -/

theorem pairItems_perm (c : ℚ) {vs vs' : List PVar} (h : vs.Perm vs') (v : PVar) :
    (pairItems c vs v).Perm (pairItems c vs' v) := (h.filter _).map _

theorem flatMap_perm {α β : Type} {l l' : List α} {f g : α → List β} (h : l.Perm l') (hfg : ∀ a, (f a).Perm (g a)) :
    (l.flatMap f).Perm (l'.flatMap g) :=
  (List.Perm.flatMap_left l (fun a _ => hfg a)).trans (h.flatMap_right g)

theorem good_perm {label : String} {a b : List Item} (h : a.Perm b) :
    ((a.map (·.name label)).Nodup ∧ ∀ it ∈ a, it.Proper) ↔ ((b.map (·.name label)).Nodup ∧ ∀ it ∈ b, it.Proper) := by
  rw [(h.map _).nodup_iff]
  constructor
  · exact fun ⟨x, y⟩ => ⟨x, fun it hi => y it (h.mem_iff.mpr hi)⟩
  · exact fun ⟨x, y⟩ => ⟨x, fun it hi => y it (h.mem_iff.mp hi)⟩

end Sawatabi
