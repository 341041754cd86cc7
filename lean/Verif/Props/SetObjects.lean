import Verif.Model.SetObjects
import Verif.Props.World

/-!
# C120: the sets that constraints hold
-/

namespace Sawatabi.SetObj

open Props

/-! ## Specification -/

/-- The value of an argument at the time of the call. -/
def Objs.value (w : Objs) : Arg → PyVars
  | .obj k => .set ((w.content k).map some)
  | .val a => a

/-- The method with its argument, for constraints as values. -/
def Method.edit (a : PyVars) : Method → Edit
  | .add => .add a
  | .remove => .remove a
  | .add1 => .add1 a
  | .add2 => .add2 a
  | .remove1 => .remove1 a
  | .remove2 => .remove2 a

/-- The objects are in order: references lead to sets, which have no duplicates. -/
structure Objs.Valid (w : Objs) : Prop where
  refs : ∀ c ∈ w.cons, ∀ k ∈ c.addrs, k < w.sets.length
  sets : ∀ s ∈ w.sets, s.Nodup

/-- All sets are kept, maybe there are new ones. -/
def Keeps (w w' : Objs) : Prop := ∃ new, w'.sets = w.sets ++ new ∧ ∀ s ∈ new, s.Nodup

/-- What the caller makes a set of has no duplicates. -/
def Call.Sets : Call → Prop
  | .newSet s => s.Nodup
  | .mutate _ s => s.Nodup
  | _ => True

/-- A call of the library, not something the caller does with a set. -/
def Call.Library : Call → Prop
  | .newSet _ => False
  | .mutate _ _ => False
  | _ => True

/-- The constraints as values. -/
def Objs.views (w : Objs) : List Constraint := w.cons.map w.view

/-- What a call of the library does when constraints are values that share nothing; arguments have the value of the time of the call. -/
def Call.onValues (w : Objs) (cs : List Constraint) : Call → Except Err (List Constraint)
  | .nHot vars n label strength => (fun c => cs ++ [c]) <$> mkNHot (vars.map w.value) n label strength
  | .zeroOrOneHot vars label strength => (fun c => cs ++ [c]) <$> mkZeroOrOneHot (vars.map w.value) label strength
  | .equality v1 v2 label strength => (fun c => cs ++ [c]) <$> mkEquality (v1.map w.value) (v2.map w.value) label strength
  | .edit i f a =>
    match cs[i]? with
    | none => .error .indexError
    | some c => (fun c' => cs.set i c') <$> c.edit (f.edit (w.value a))
  | .newSet _ => .ok cs
  | .mutate _ _ => .ok cs

/-- The argument, if it is a set object, exists. -/
def Arg.In (w : Objs) : Arg → Prop
  | .obj k => k < w.sets.length
  | .val _ => True

/-- The argument is not an object that the caller has: a literal, a copy, a list and so on. -/
def Arg.Copied : Arg → Prop
  | .obj _ => False
  | .val _ => True

/-- Set objects in arguments exist. -/
def Call.Refers (w : Objs) : Call → Prop
  | .nHot vars _ _ _ => ∀ a ∈ vars, a.In w
  | .zeroOrOneHot vars _ _ => ∀ a ∈ vars, a.In w
  | .equality v1 v2 _ _ => (∀ a ∈ v1, a.In w) ∧ ∀ a ∈ v2, a.In w
  | .edit _ _ a => a.In w
  | _ => True

/-- Constructors get copies; the editing methods may get any object. -/
def Call.Copies : Call → Prop
  | .nHot vars _ _ _ => ∀ a ∈ vars, a.Copied
  | .zeroOrOneHot vars _ _ => ∀ a ∈ vars, a.Copied
  | .equality v1 v2 _ _ => (∀ a ∈ v1, a.Copied) ∧ ∀ a ∈ v2, a.Copied
  | _ => True

/-- A history with the sets that the caller made and the constraints as values: constructors get copies, and the caller changes own sets
only, as they like. -/
inductive Careful : List Nat → Objs → List Constraint → Prop
  | start : Careful [] ⟨[], []⟩ []
  | newSet {mine w cs} (s : List PVar) : Careful mine w cs → s.Nodup →
      Careful (w.sets.length :: mine) ((Call.newSet s).run.run w).state cs
  | mutate {mine w cs} (k : Nat) (s : List PVar) : Careful mine w cs → s.Nodup → k ∈ mine →
      Careful mine ((Call.mutate k s).run.run w).state cs
  | returns {mine w cs cs'} (call : Call) : Careful mine w cs → call.Library → call.Copies → call.onValues w cs = .ok cs' →
      Careful mine (call.run.run w).state cs'
  | raises {mine w cs e} (call : Call) : Careful mine w cs → call.Library → call.Copies → call.onValues w cs = .error e →
      Careful mine (call.run.run w).state cs

/-! ## Lemmas -/

theorem Keeps.refl (w : Objs) : Keeps w w := ⟨[], by simp, by simp⟩

theorem Keeps.trans {a b c : Objs} (h : Keeps a b) (h' : Keeps b c) : Keeps a c := by
  obtain ⟨x, h1, h2⟩ := h
  obtain ⟨y, h3, h4⟩ := h'
  refine ⟨x ++ y, by rw [h3, h1, List.append_assoc], fun s hs => ?_⟩
  rcases List.mem_append.mp hs with hs | hs
  · exact h2 s hs
  · exact h4 s hs

theorem Keeps.get {w w' : Objs} (h : Keeps w w') {k : Nat} (hk : k < w.sets.length) : w'.sets[k]? = w.sets[k]? := by
  obtain ⟨x, h1, _⟩ := h
  rw [h1, List.getElem?_append_left hk]

theorem Keeps.content {w w' : Objs} (h : Keeps w w') {k : Nat} (hk : k < w.sets.length) : w'.content k = w.content k := by
  unfold Objs.content; rw [h.get hk]

theorem Keeps.length {w w' : Objs} (h : Keeps w w') : w.sets.length ≤ w'.sets.length := by
  obtain ⟨x, h1, _⟩ := h
  rw [h1, List.length_append]; omega

theorem view_congr {w w' : Objs} {c : Con} (h : ∀ k ∈ c.addrs, w'.content k = w.content k) : w'.view c = w.view c := by
  unfold Objs.view
  unfold Con.addrs at h
  cases hk : c.kind with
  | nHot n => simp only [hk] at h ⊢; rw [h _ (by simp)]
  | zeroOrOneHot => simp only [hk] at h ⊢; rw [h _ (by simp)]
  | equality k => simp only [hk] at h ⊢; rw [h _ (by simp), h k (by simp)]

theorem Keeps.view {w w' : Objs} (h : Keeps w w') (hv : w.Valid) {c : Con} (hc : c ∈ w.cons) : w'.view c = w.view c :=
  view_congr fun k hk => h.content (hv.refs c hc k hk)

theorem toSet_of_nodup {l : List PVar} (h : l.Nodup) : toSet l = l := by
  have := sunion_disjoint (v1 := []) h (by simp)
  simpa [toSet, sunion] using this

theorem content_nodup {w : Objs} (hv : w.Valid) (k : Nat) : (w.content k).Nodup := by
  unfold Objs.content
  cases h : w.sets[k]? with
  | none => simp
  | some s => exact hv.sets s (List.mem_of_getElem? h)

theorem checkVarList_some (l : List PVar) (h : l ≠ []) : checkVarList (l.map some) = .ok l := by
  have hm : ∀ l : List PVar, (l.map some).mapM (fun o : Option PVar => match o with
      | some v => (.ok v : Except Err PVar)
      | none => .error .typeError) = .ok l := by
    intro l
    induction l with
    | nil => rfl
    | cons v l ih => rw [List.map_cons, List.mapM_cons, ih]; rfl
  cases l with
  | nil => exact absurd rfl h
  | cons v l => exact hm (v :: l)

theorem checkVarsToSet_nodup {a : PyVars} {s : List PVar} (h : checkVarsToSet a = .ok s) : s.Nodup := by
  cases a with
  | array a => cases h; exact nodup_toSet _
  | var v => cases h; simp
  | list l =>
    simp only [checkVarsToSet] at h
    cases hc : checkVarList l with
    | error e => rw [hc] at h; cases h
    | ok x => rw [hc] at h; cases h; exact nodup_toSet _
  | set l =>
    simp only [checkVarsToSet] at h
    cases hc : checkVarList l with
    | error e => rw [hc] at h; cases h
    | ok x => rw [hc] at h; cases h; exact nodup_toSet _
  | other => cases h

/-- The set that is kept has the value that the check gives; no set changes. -/
theorem keep_run {w : Objs} (hv : w.Valid) (a : Arg) :
    match checkVarsToSet (w.value a) with
    | .error e => (keep a).run w = .error e w
    | .ok s => ∃ k w', (keep a).run w = .ok k w' ∧ Keeps w w' ∧ w'.cons = w.cons ∧ k < w'.sets.length ∧ w'.content k = s ∧
        (∀ i, a = .obj i → k = i) ∧ (∀ b, a = .val b → w.sets.length ≤ k) := by
  cases a with
  | val b =>
    simp only [Objs.value]
    cases h : checkVarsToSet b with
    | error e => simp only [keep, Py.run_bind, h, Py.run_liftE_error]
    | ok s =>
      simp only [keep, Py.run_bind, h, Py.run_liftE_ok, alloc, Py.run_get, Py.run_set, Py.run_pure]
      refine ⟨_, _, rfl, ⟨[s], rfl, by simpa using checkVarsToSet_nodup h⟩, rfl, by simp, ?_, by simp, fun b _ => le_refl _⟩
      unfold Objs.content
      simp
  | obj k =>
    simp only [Objs.value]
    cases h : w.sets[k]? with
    | none =>
      have hc : w.content k = [] := by unfold Objs.content; rw [h]; rfl
      rw [hc]
      simp only [List.map_nil, checkVarsToSet, checkVarList, keep, Py.run_bind, Py.run_get, h]
      rfl
    | some s =>
      have hc : w.content k = s := by unfold Objs.content; rw [h]; rfl
      rw [hc]
      by_cases hs : s = []
      · subst hs
        simp only [List.map_nil, checkVarsToSet, checkVarList, keep, Py.run_bind, Py.run_get, h]
        rfl
      · have hn := hv.sets s (List.mem_of_getElem? h)
        simp only [checkVarsToSet, checkVarList_some s hs]
        change ∃ (i : Nat) (w' : Objs), _ ∧ _ ∧ _ ∧ _ ∧ w'.content i = toSet s ∧ _
        rw [toSet_of_nodup hn]
        refine ⟨k, w, ?_, Keeps.refl w, rfl, ?_, hc, fun i hi => (by cases hi; rfl), fun b hb => (by cases hb)⟩
        · simp only [keep, Py.run_bind, Py.run_get, h]
          rw [if_neg hs]; rfl
        · by_contra hlt
          rw [List.getElem?_eq_none (by omega)] at h
          cases h

theorem forM_check {own s : List PVar} (w : Objs) :
    (s.forM fun v => (if v ∉ own then throw .valueError else pure () : Py Objs Unit)).run w =
      if ∀ v ∈ s, v ∈ own then .ok () w else .error .valueError w := by
  induction s with
  | nil => rw [if_pos (by simp)]; rfl
  | cons v s ih =>
    rw [Py.run_forM_cons]
    by_cases h : v ∈ own
    · simp only [h, not_true, if_false, Py.run_pure, ih, List.mem_cons, forall_eq_or_imp, true_and]
    · have : ¬ ∀ x ∈ v :: s, x ∈ own := fun hx => h (hx v (by simp))
      rw [if_neg this]
      simp only [h, not_false_eq_true, if_true]
      rfl

/-- An editing method on values, slot by slot. -/
theorem edit_slot (w : Objs) (c : Con) (f : Method) (a : PyVars) :
    match f.slot c.kind with
    | .error e => (w.view c).edit (f.edit a) = .error e
    | .ok (second, isAdd) =>
      match checkVarsToSet a with
      | .error e => (w.view c).edit (f.edit a) = .error e
      | .ok s =>
        if isAdd = false ∧ ¬ ∀ v ∈ s, v ∈ w.content (c.addr second) then (w.view c).edit (f.edit a) = .error .valueError
        else ∀ (w' : Objs) (k : Nat), (∀ j ∈ c.addrs, w'.content j = w.content j) →
          w'.content k = (if isAdd then sunion (w.content (c.addr second)) s else sdiff (w.content (c.addr second)) s) →
          (w.view c).edit (f.edit a) = .ok (w'.view (c.point second k)) := by
  obtain ⟨label, strength, kind, set1⟩ := c
  cases kind <;> cases f <;>
    simp only [Method.slot, Objs.view, Method.edit, Constraint.edit, onSet, addVariable_run, removeVariable_run, Con.addr, Con.addrs,
      Con.point] <;>
    cases checkVarsToSet a <;> simp
  all_goals first
    | (intro w' k h1 h2 h3; simp_all)
    | (intro w' k h1 h2; simp_all)
    | (split_ifs <;> first
       | rfl
       | (exfalso; grind)
       | (intro w' k h1 h2 h3; rw [← h3, h1]; rfl)
       | (intro w' k h1 h2 h3; rw [← h3, h2]; rfl)
       | (intro w' k h1 h2; rw [← h2]; rfl)
       | (intro w' k; grind))

/-- The objects after adding a set. -/
theorem Keeps.alloc {w : Objs} {s : List PVar} (hs : s.Nodup) (cons : List Con) : Keeps w { sets := w.sets ++ [s], cons := cons } :=
  ⟨[s], rfl, by simpa using hs⟩

theorem content_new (l : List (List PVar)) (s : List PVar) (cons : List Con) :
    ({ sets := l ++ [s], cons := cons } : Objs).content l.length = s := by
  unfold Objs.content; simp

theorem point_addrs {c : Con} {second : Bool} {k j : Nat} (h : j ∈ (c.point second k).addrs) : j = k ∨ j ∈ c.addrs := by
  obtain ⟨label, strength, kind, set1⟩ := c
  cases kind <;> cases second <;> simp_all [Con.point, Con.addrs] <;> tauto

theorem addr_mem (c : Con) (second : Bool) : c.addr second ∈ c.addrs := by
  obtain ⟨label, strength, kind, set1⟩ := c
  cases kind <;> cases second <;> simp [Con.addr, Con.addrs]

/-- An editing method: what happens to the objects. -/
theorem editCon_run {w : Objs} (hv : w.Valid) {i : Nat} {c : Con} (hc : w.cons[i]? = some c) (f : Method) (a : Arg) :
    match (w.view c).edit (f.edit (w.value a)) with
    | .error e => ∃ w', (editCon i f a).run w = .error e w' ∧ Keeps w w' ∧ w'.cons = w.cons
    | .ok c' => ∃ w' second isAdd k, (editCon i f a).run w = .ok () w' ∧ Keeps w w' ∧ f.slot c.kind = .ok (second, isAdd) ∧
        w'.cons = w.cons.set i (c.point second k) ∧ w'.view (c.point second k) = c' ∧ w.sets.length ≤ k ∧ k < w'.sets.length := by
  have hcm := List.mem_of_getElem? hc
  have hed := edit_slot w c f (w.value a)
  cases hsl : f.slot c.kind with
  | error e =>
    simp only [hsl] at hed
    rw [hed]
    exact ⟨w, by simp only [editCon, Py.run_bind, Py.run_get, hc, hsl, Py.run_liftE_error], Keeps.refl w, rfl⟩
  | ok p =>
    obtain ⟨second, isAdd⟩ := p
    have hk := keep_run hv a
    simp only [hsl] at hed
    cases hch : checkVarsToSet (w.value a) with
    | error e =>
      simp only [hch] at hed hk
      rw [hed]
      exact ⟨w, by simp only [editCon, Py.run_bind, Py.run_get, hc, hsl, Py.run_liftE_ok, hk], Keeps.refl w, rfl⟩
    | ok s =>
      simp only [hch] at hed hk
      obtain ⟨k, w₁, hrun, hkeep, hcons, -, hcont, -, -⟩ := hk
      have hown : w₁.content (c.addr second) = w.content (c.addr second) := hkeep.content (hv.refs c hcm _ (addr_mem c second))
      have hon : (w.content (c.addr second)).Nodup := content_nodup hv _
      by_cases hbad : isAdd = false ∧ ¬ ∀ v ∈ s, v ∈ w.content (c.addr second)
      · rw [if_pos hbad] at hed
        rw [hed]
        obtain ⟨rfl, hb⟩ := hbad
        refine ⟨w₁, ?_, hkeep, hcons⟩
        simp only [editCon, Py.run_bind, Py.run_get, hc, hsl, Py.run_liftE_ok, hrun, hcont, hown, Bool.not_false, if_true, forM_check,
          if_neg hb]
      · rw [if_neg hbad] at hed
        have hrun' : (editCon i f a).run w = .ok ()
            { sets := w₁.sets ++ [if isAdd then sunion (w.content (c.addr second)) s else sdiff (w.content (c.addr second)) s]
              cons := w.cons.set i (c.point second w₁.sets.length) } := by
          cases isAdd with
          | true =>
            simp only [editCon, Py.run_bind, Py.run_get, hc, hsl, Py.run_liftE_ok, hrun, hcont, hown, Bool.not_true, if_true,
              Bool.false_eq_true, if_false, Py.run_pure, alloc, Py.run_set, Py.run_modify, hcons]
          | false =>
            have hall : ∀ v ∈ s, v ∈ w.content (c.addr second) := by
              by_contra h; exact hbad ⟨rfl, h⟩
            simp only [editCon, Py.run_bind, Py.run_get, hc, hsl, Py.run_liftE_ok, hrun, hcont, hown, Bool.not_false, if_true,
              Bool.false_eq_true, if_false, forM_check, if_pos hall, Py.run_pure, alloc, Py.run_set, Py.run_modify, hcons]
        have hnew : (if isAdd then sunion (w.content (c.addr second)) s else sdiff (w.content (c.addr second)) s).Nodup := by
          cases isAdd with
          | true => exact nodup_sunion hon
          | false => exact hon.filter _
        have hkeep' := hkeep.trans (Keeps.alloc (w := w₁) hnew (w.cons.set i (c.point second w₁.sets.length)))
        have := hed _ w₁.sets.length (fun j hj => hkeep'.content (hv.refs c hcm j hj)) (content_new _ _ _)
        rw [this]
        exact ⟨_, second, isAdd, _, hrun', hkeep', rfl, rfl, rfl, hkeep.length, by simp⟩

/-- The variables of an optional argument. -/
def optSet : Option PyVars → Except Err (List PVar)
  | none => .ok []
  | some a => checkVarsToSet a

theorem keepOrNew_run {w : Objs} (hv : w.Valid) (a : Option Arg) :
    match optSet (a.map w.value) with
    | .error e => (keepOrNew a).run w = .error e w
    | .ok s => ∃ k w', (keepOrNew a).run w = .ok k w' ∧ Keeps w w' ∧ w'.cons = w.cons ∧ k < w'.sets.length ∧ w'.content k = s ∧
        (∀ i, a = some (.obj i) → k = i) ∧ ((∀ b ∈ a, b.Copied) → w.sets.length ≤ k) := by
  cases a with
  | none =>
    exact ⟨w.sets.length, _, rfl, Keeps.alloc (by simp) _, rfl, by simp, content_new _ _ _, by simp, fun _ => le_refl _⟩
  | some a =>
    have h := keep_run hv a
    change match checkVarsToSet (w.value a) with
      | .error e => (keep a).run w = .error e w
      | .ok s => _
    cases hc : checkVarsToSet (w.value a) with
    | error e => simpa only [hc] using h
    | ok s =>
      simp only [hc] at h ⊢
      obtain ⟨k, w', h1, h2, h3, h4, h5, h6, h7⟩ := h
      refine ⟨k, w', h1, h2, h3, h4, h5, fun i hi => h6 i (by cases hi; rfl), fun hb => ?_⟩
      have := hb a rfl
      cases a with
      | obj i => exact this.elim
      | val b => exact h7 b rfl

theorem Keeps.valid {w w' : Objs} (h : Keeps w w') (hv : w.Valid) (hc : w'.cons = w.cons) : w'.Valid := by
  refine ⟨fun c hcm k hk => lt_of_lt_of_le (hv.refs c (hc ▸ hcm) k hk) h.length, fun s hs => ?_⟩
  obtain ⟨new, h1, h2⟩ := h
  rw [h1] at hs
  rcases List.mem_append.mp hs with hs | hs
  · exact hv.sets s hs
  · exact h2 s hs

theorem Keeps.value {w w' : Objs} (h : Keeps w w') {a : Arg} (ha : a.In w) : w'.value a = w.value a := by
  cases a with
  | val a => rfl
  | obj k => unfold Objs.value; simp only [h.content ha]

/-- What a constructor does to the objects. -/
def Constructs (w : Objs) (x : Py Objs Unit) (c : Except Err Constraint) (copies : Prop) : Prop :=
  match c with
  | .error e => ∃ w', x.run w = .error e w' ∧ Keeps w w' ∧ w'.cons = w.cons
  | .ok c => ∃ w' d, x.run w = .ok () w' ∧ Keeps w w' ∧ w'.cons = w.cons ++ [d] ∧ w'.view d = c ∧
      (∀ k ∈ d.addrs, k < w'.sets.length) ∧ (copies → ∀ k ∈ d.addrs, w.sets.length ≤ k)

theorem newNHot_run {w : Objs} (hv : w.Valid) (vars : Option Arg) (n : Int) (label : String) (strength : ℚ) :
    Constructs w (newNHot vars n label strength) (mkNHot (vars.map w.value) n label strength) (∀ a ∈ vars, a.Copied) := by
  have hk := keepOrNew_run hv vars
  have hm : mkNHot (vars.map w.value) n label strength = (match checkLabel label with
      | .error e => .error e
      | .ok _ => match optSet (vars.map w.value) with
        | .error e => .error e
        | .ok vs => if n ≤ 0 then .error .valueError else .ok (.nHot label strength vs n.toNat)) := by
    unfold mkNHot optSet
    cases checkLabel label with
    | error e => rfl
    | ok _ =>
      cases vars with
      | none => by_cases hn : n ≤ 0 <;> simp only [hn] <;> rfl
      | some a =>
        simp only [Option.map_some]
        cases checkVarsToSet (w.value a) with
        | error e => rfl
        | ok vs => by_cases hn : n ≤ 0 <;> simp only [hn] <;> rfl
  rw [hm]
  unfold Constructs
  cases hl : checkLabel label with
  | error e => exact ⟨w, by simp only [newNHot, Py.run_bind, hl, Py.run_liftE_error], Keeps.refl w, rfl⟩
  | ok u =>
    cases ho : optSet (vars.map w.value) with
    | error e =>
      simp only [ho] at hk
      exact ⟨w, by simp only [newNHot, Py.run_bind, hl, Py.run_liftE_ok, hk], Keeps.refl w, rfl⟩
    | ok vs =>
      simp only [ho] at hk
      obtain ⟨k, w', h1, h2, h3, h4, h5, -, h7⟩ := hk
      by_cases hn : n ≤ 0
      · simp only [if_pos hn]
        refine ⟨w', ?_, h2, h3⟩
        simp only [newNHot, Py.run_bind, hl, Py.run_liftE_ok, h1, if_pos hn]
        rfl
      · simp only [if_neg hn]
        refine ⟨{ w' with cons := w'.cons ++ [⟨label, strength, .nHot n.toNat, k⟩] }, ⟨label, strength, .nHot n.toNat, k⟩, ?_, h2, by rw [h3],
          ?_, ?_, ?_⟩
        · simp only [newNHot, Py.run_bind, hl, Py.run_liftE_ok, h1, if_neg hn, Py.run_pure, addCon, Py.run_modify]
        · rw [← h5]; rfl
        · intro j hj
          rw [List.mem_singleton.mp hj]; exact h4
        · intro hc j hj
          rw [List.mem_singleton.mp hj]; exact h7 hc

theorem newZeroOrOneHot_run {w : Objs} (hv : w.Valid) (vars : Option Arg) (label : String) (strength : ℚ) :
    Constructs w (newZeroOrOneHot vars label strength) (mkZeroOrOneHot (vars.map w.value) label strength) (∀ a ∈ vars, a.Copied) := by
  have hk := keepOrNew_run hv vars
  have hm : mkZeroOrOneHot (vars.map w.value) label strength = (match checkLabel label with
      | .error e => .error e
      | .ok _ => match optSet (vars.map w.value) with
        | .error e => .error e
        | .ok vs => .ok (.zeroOrOneHot label strength vs)) := by
    unfold mkZeroOrOneHot optSet
    cases checkLabel label with
    | error e => rfl
    | ok _ =>
      cases vars with
      | none => rfl
      | some a =>
        simp only [Option.map_some]
        cases checkVarsToSet (w.value a) <;> rfl
  rw [hm]
  unfold Constructs
  cases hl : checkLabel label with
  | error e => exact ⟨w, by simp only [newZeroOrOneHot, Py.run_bind, hl, Py.run_liftE_error], Keeps.refl w, rfl⟩
  | ok u =>
    cases ho : optSet (vars.map w.value) with
    | error e =>
      simp only [ho] at hk
      exact ⟨w, by simp only [newZeroOrOneHot, Py.run_bind, hl, Py.run_liftE_ok, hk], Keeps.refl w, rfl⟩
    | ok vs =>
      simp only [ho] at hk
      obtain ⟨k, w', h1, h2, h3, h4, h5, -, h7⟩ := hk
      refine ⟨{ w' with cons := w'.cons ++ [⟨label, strength, .zeroOrOneHot, k⟩] }, ⟨label, strength, .zeroOrOneHot, k⟩, ?_, h2, by rw [h3],
        ?_, ?_, ?_⟩
      · simp only [newZeroOrOneHot, Py.run_bind, hl, Py.run_liftE_ok, h1, addCon, Py.run_modify]
      · rw [← h5]; rfl
      · intro j hj
        rw [List.mem_singleton.mp hj]; exact h4
      · intro hc j hj
        rw [List.mem_singleton.mp hj]; exact h7 hc

theorem newEquality_run {w : Objs} (hv : w.Valid) (v1 v2 : Option Arg) (h2in : ∀ a ∈ v2, a.In w) (label : String) (strength : ℚ) :
    Constructs w (newEquality v1 v2 label strength) (mkEquality (v1.map w.value) (v2.map w.value) label strength)
      ((∀ a ∈ v1, a.Copied) ∧ ∀ a ∈ v2, a.Copied) := by
  have hk := keepOrNew_run hv v1
  have hm : mkEquality (v1.map w.value) (v2.map w.value) label strength = (match checkLabel label with
      | .error e => .error e
      | .ok _ => match optSet (v1.map w.value) with
        | .error e => .error e
        | .ok s1 => match optSet (v2.map w.value) with
          | .error e => .error e
          | .ok s2 => .ok (.equality label strength s1 s2)) := by
    have h2 : ∀ s1 : List PVar, (do
        let v2 ← match v2.map w.value with
          | none => pure []
          | some a => checkVarsToSet a
        return .equality label strength s1 v2 : Except Err Constraint) = (match optSet (v2.map w.value) with
          | .error e => .error e
          | .ok s2 => .ok (.equality label strength s1 s2)) := by
      intro s1
      cases v2 with
      | none => rfl
      | some a =>
        simp only [Option.map_some, optSet]
        cases checkVarsToSet (w.value a) <;> rfl
    unfold mkEquality
    cases checkLabel label with
    | error e => rfl
    | ok _ =>
      cases v1 with
      | none => exact h2 []
      | some a =>
        simp only [Option.map_some, optSet]
        cases checkVarsToSet (w.value a) with
        | error e => rfl
        | ok s1 => exact h2 s1
  rw [hm]
  unfold Constructs
  cases hl : checkLabel label with
  | error e => exact ⟨w, by simp only [newEquality, Py.run_bind, hl, Py.run_liftE_error], Keeps.refl w, rfl⟩
  | ok u =>
    cases ho : optSet (v1.map w.value) with
    | error e =>
      simp only [ho] at hk
      exact ⟨w, by simp only [newEquality, Py.run_bind, hl, Py.run_liftE_ok, hk], Keeps.refl w, rfl⟩
    | ok s1 =>
      simp only [ho] at hk
      obtain ⟨k, w', h1, h2, h3, h4, h5, -, h7⟩ := hk
      have hk2 := keepOrNew_run (h2.valid hv h3) v2
      have hval : v2.map w'.value = v2.map w.value := by
        cases v2 with
        | none => rfl
        | some a => simp only [Option.map_some, h2.value (h2in a rfl)]
      rw [hval] at hk2
      cases ho2 : optSet (v2.map w.value) with
      | error e =>
        simp only [ho2] at hk2
        exact ⟨w', by simp only [newEquality, Py.run_bind, hl, Py.run_liftE_ok, h1, hk2], h2, h3⟩
      | ok s2 =>
        simp only [ho2] at hk2
        obtain ⟨k2, w2, g1, g2, g3, g4, g5, -, g7⟩ := hk2
        refine ⟨{ w2 with cons := w2.cons ++ [⟨label, strength, .equality k2, k⟩] }, ⟨label, strength, .equality k2, k⟩, ?_, h2.trans g2,
          by rw [g3, h3], ?_, ?_, ?_⟩
        · simp only [newEquality, Py.run_bind, hl, Py.run_liftE_ok, h1, g1, addCon, Py.run_modify]
        · have : w2.content k = s1 := by rw [g2.content h4, h5]
          rw [← g5, ← this]; rfl
        · intro j hj
          have : j = k ∨ j = k2 := by simpa [Con.addrs] using hj
          rcases this with rfl | rfl
          · exact lt_of_lt_of_le h4 g2.length
          · exact g4
        · intro hc j hj
          have : j = k ∨ j = k2 := by simpa [Con.addrs] using hj
          rcases this with rfl | rfl
          · exact h7 hc.1
          · exact le_trans h2.length (g7 hc.2)

theorem Keeps.views {w w' : Objs} (h : Keeps w w') (hv : w.Valid) (hc : w'.cons = w.cons) : w'.views = w.views := by
  unfold Objs.views
  rw [hc]
  exact List.map_congr_left fun c hcm => h.view hv hcm

/-- A library call, in one statement: the values, the sets kept, the state valid, and where references go. -/
theorem library_run' {w : Objs} (hv : w.Valid) (call : Call) (hl : call.Library) (hr : (∀ i f a, call ≠ .edit i f a) → call.Refers w) :
    match call.onValues w w.views with
    | .error e => ∃ w', call.run.run w = .error e w' ∧ Keeps w w' ∧ w'.views = w.views ∧ w'.Valid ∧ w'.cons = w.cons
    | .ok cs => ∃ w', call.run.run w = .ok () w' ∧ Keeps w w' ∧ w'.views = cs ∧ w'.Valid ∧
        (call.Copies → ∀ c ∈ w'.cons, ∀ k ∈ c.addrs, w.sets.length ≤ k ∨ ∃ c₀ ∈ w.cons, k ∈ c₀.addrs) := by
  have construct : ∀ (x : Py Objs Unit) (v : Except Err Constraint) (copies : Prop), Constructs w x v copies →
      match (fun c => w.views ++ [c]) <$> v with
      | .error e => ∃ w', x.run w = .error e w' ∧ Keeps w w' ∧ w'.views = w.views ∧ w'.Valid ∧ w'.cons = w.cons
      | .ok cs => ∃ w', x.run w = .ok () w' ∧ Keeps w w' ∧ w'.views = cs ∧ w'.Valid ∧
          (copies → ∀ c ∈ w'.cons, ∀ k ∈ c.addrs, w.sets.length ≤ k ∨ ∃ c₀ ∈ w.cons, k ∈ c₀.addrs) := by
    intro x v copies h
    cases v with
    | error e =>
      obtain ⟨w', h1, h2, h3⟩ := h
      exact ⟨w', h1, h2, h2.views hv h3, h2.valid hv h3, h3⟩
    | ok c =>
      obtain ⟨w', d, h1, h2, h3, h4, h5, h6⟩ := h
      refine ⟨w', h1, h2, ?_, ⟨?_, (h2.valid (w' := ⟨w'.sets, w.cons⟩) hv rfl).sets⟩, ?_⟩
      · unfold Objs.views
        rw [h3, List.map_append, List.map_singleton, h4]
        congr 1
        exact List.map_congr_left fun c hcm => h2.view hv hcm
      · intro c hc k hk
        rw [h3] at hc
        rcases List.mem_append.mp hc with hc | hc
        · exact lt_of_lt_of_le (hv.refs c hc k hk) h2.length
        · rw [List.mem_singleton.mp hc] at hk
          exact h5 k hk
      · intro hcp c hc k hk
        rw [h3] at hc
        rcases List.mem_append.mp hc with hc | hc
        · exact .inr ⟨c, hc, hk⟩
        · rw [List.mem_singleton.mp hc] at hk
          exact .inl (h6 hcp k hk)
  cases call with
  | nHot vars n label strength => exact construct _ _ _ (newNHot_run hv vars n label strength)
  | zeroOrOneHot vars label strength => exact construct _ _ _ (newZeroOrOneHot_run hv vars label strength)
  | equality v1 v2 label strength => exact construct _ _ _ (newEquality_run hv v1 v2 (hr (by simp)).2 label strength)
  | newSet s => exact hl.elim
  | mutate k s => exact hl.elim
  | edit i f a =>
    simp only [Call.onValues, Call.run]
    cases hc : w.cons[i]? with
    | none =>
      have : w.views[i]? = none := by unfold Objs.views; rw [List.getElem?_map, hc]; rfl
      simp only [this]
      refine ⟨w, ?_, Keeps.refl w, rfl, hv, rfl⟩
      simp only [editCon, Py.run_bind, Py.run_get, hc]
      rfl
    | some c =>
      have hci : w.views[i]? = some (w.view c) := by unfold Objs.views; rw [List.getElem?_map, hc]; rfl
      simp only [hci]
      have h := editCon_run hv hc f a
      cases he : (w.view c).edit (f.edit (w.value a)) with
      | error e =>
        simp only [he] at h
        obtain ⟨w', h1, h2, h3⟩ := h
        exact ⟨w', h1, h2, h2.views hv h3, h2.valid hv h3, h3⟩
      | ok c' =>
        simp only [he] at h
        obtain ⟨w', second, isAdd, k, h1, h2, -, h4, h5, h6, h7⟩ := h
        have hmem := List.mem_of_getElem? hc
        refine ⟨w', h1, h2, ?_, ⟨?_, (h2.valid (w' := ⟨w'.sets, w.cons⟩) hv rfl).sets⟩, ?_⟩
        · unfold Objs.views
          rw [h4, List.map_set, h5]
          congr 1
          exact List.map_congr_left fun c hcm => h2.view hv hcm
        · intro d hd j hj
          rw [h4] at hd
          rcases List.mem_or_eq_of_mem_set hd with hd | rfl
          · exact lt_of_lt_of_le (hv.refs d hd j hj) h2.length
          · rcases point_addrs hj with rfl | hj
            · exact h7
            · exact lt_of_lt_of_le (hv.refs c hmem j hj) h2.length
        · intro _ d hd j hj
          rw [h4] at hd
          rcases List.mem_or_eq_of_mem_set hd with hd | rfl
          · exact .inr ⟨d, hd, hj⟩
          · rcases point_addrs hj with rfl | hj
            · exact .inl h6
            · exact .inr ⟨c, hmem, hj⟩

theorem library_run {w : Objs} (hv : w.Valid) (call : Call) (hl : call.Library) (hr : call.Refers w) :
    match call.onValues w w.views with
    | .error e => ∃ w', call.run.run w = .error e w' ∧ Keeps w w' ∧ w'.views = w.views ∧ w'.Valid ∧ w'.cons = w.cons
    | .ok cs => ∃ w', call.run.run w = .ok () w' ∧ Keeps w w' ∧ w'.views = cs ∧ w'.Valid ∧
        (call.Copies → ∀ c ∈ w'.cons, ∀ k ∈ c.addrs, w.sets.length ≤ k ∨ ∃ c₀ ∈ w.cons, k ∈ c₀.addrs) :=
  library_run' hv call hl fun _ => hr

end Sawatabi.SetObj

/-! ## The claims -/

namespace Sawatabi.Props

open SetObj

/-- **C120**, states: whatever is called, references of constraints lead to sets that exist, and these have no duplicates. -/
theorem C120_valid (w : Objs) (call : Call) (hv : w.Valid) (hs : call.Sets) (hr : call.Refers w) : (call.run.run w).state.Valid := by
  by_cases hl : call.Library
  · have h := library_run hv call hl hr
    cases ho : call.onValues w w.views with
    | error e =>
      simp only [ho] at h
      obtain ⟨w', h1, _, _, h4, _⟩ := h
      rw [h1]; exact h4
    | ok cs =>
      simp only [ho] at h
      obtain ⟨w', h1, _, _, h4, _⟩ := h
      rw [h1]; exact h4
  · cases call with
    | newSet s =>
      exact (Keeps.alloc (w := w) hs w.cons).valid hv rfl
    | mutate k s =>
      refine ⟨fun c hc j hj => ?_, fun t ht => ?_⟩
      · change j < (w.sets.set k s).length
        rw [List.length_set]; exact hv.refs c hc j hj
      · rcases List.mem_or_eq_of_mem_set ht with ht | rfl
        · exact hv.sets t ht
        · exact hs
    | nHot _ _ _ _ => exact absurd trivial hl
    | zeroOrOneHot _ _ _ => exact absurd trivial hl
    | equality _ _ _ _ => exact absurd trivial hl
    | edit _ _ _ => exact absurd trivial hl

/-- **C120**, calls of the library: a constructor or an editing method does to the constraints what it does to values, with the same
exception; a call that raises changes no constraint. In all cases the sets that existed before the call have their old content, also the
one that was passed and the one that the constraint had. -/
theorem C120_library (w : Objs) (call : Call) (hv : w.Valid) (hl : call.Library) (hr : call.Refers w) :
    (∀ cs, call.onValues w w.views = .ok cs → ∃ w', call.run.run w = .ok () w' ∧ w'.views = cs) ∧
    (∀ e, call.onValues w w.views = .error e → ∃ w', call.run.run w = .error e w' ∧ w'.views = w.views) ∧
    (∀ k, k < w.sets.length → (call.run.run w).state.sets[k]? = w.sets[k]?) := by
  have h := library_run hv call hl hr
  cases ho : call.onValues w w.views with
  | error e =>
    simp only [ho] at h
    obtain ⟨w', h1, h2, h3, _⟩ := h
    refine ⟨fun _ hx => (by cases hx), fun e' hx => (by cases hx; exact ⟨w', h1, h3⟩), fun k hk => ?_⟩
    rw [h1]; exact h2.get hk
  | ok cs =>
    simp only [ho] at h
    obtain ⟨w', h1, h2, h3, _⟩ := h
    refine ⟨fun cs' hx => (by cases hx; exact ⟨w', h1, h3⟩), fun _ hx => (by cases hx), fun k hk => ?_⟩
    rw [h1]; exact h2.get hk

/-- **C120**, an editing method that returns: the constraint gets a new set object, which no other constraint refers to and which is not
the argument; its other set stays the object it was. -/
theorem C120_edit_fresh (w w' : Objs) (i : Nat) (c : Con) (f : Method) (a : Arg) (hv : w.Valid) (hc : w.cons[i]? = some c)
    (h : (editCon i f a).run w = .ok () w') :
    ∃ second k, (∃ isAdd, f.slot c.kind = .ok (second, isAdd)) ∧ w'.cons = w.cons.set i (c.point second k) ∧ w.sets.length ≤ k ∧
      k < w'.sets.length ∧ (∀ d ∈ w.cons, k ∉ d.addrs) ∧ (a.In w → a ≠ .obj k) := by
  have hr := editCon_run hv hc f a
  cases he : (w.view c).edit (f.edit (w.value a)) with
  | error e =>
    simp only [he] at hr
    obtain ⟨w₁, h1, _⟩ := hr
    rw [h1] at h; cases h
  | ok c' =>
    simp only [he] at hr
    obtain ⟨w₁, second, isAdd, k, h1, h2, h3, h4, -, h6, h7⟩ := hr
    rw [h1] at h; cases h
    refine ⟨second, k, ⟨isAdd, h3⟩, h4, h6, h7, fun d hd hk => ?_, fun ha hx => ?_⟩
    · have := hv.refs d hd k hk
      omega
    · subst hx
      have : k < w.sets.length := ha
      omega

/-- **C120**, the caller changes a set: exactly the constraints that refer to it change. -/
theorem C120_mutate_iff (w : Objs) (k : Nat) (s : List PVar) (hk : k < w.sets.length) :
    ∃ w', (Call.mutate k s).run.run w = .ok () w' ∧ w'.cons = w.cons ∧
      ∀ c ∈ w.cons, (w'.view c = w.view c ↔ (k ∉ c.addrs ∨ s = w.content k)) := by
  refine ⟨_, rfl, rfl, fun c _ => ?_⟩
  have hself : ({ w with sets := w.sets.set k s } : Objs).content k = s := by
    unfold Objs.content; simp [hk]
  have hother : ∀ j, j ≠ k → ({ w with sets := w.sets.set k s } : Objs).content j = w.content j := by
    intro j hj
    unfold Objs.content
    simp only [List.getElem?_set_ne (Ne.symm hj)]
  constructor
  · intro h
    by_cases hm : k ∈ c.addrs
    · refine .inr ?_
      rw [← hself]
      obtain ⟨label, strength, kind, set1⟩ := c
      cases kind with
      | nHot n =>
        simp only [Con.addrs, List.mem_singleton] at hm
        subst hm
        simpa [Objs.view] using h
      | zeroOrOneHot =>
        simp only [Con.addrs, List.mem_singleton] at hm
        subst hm
        simpa [Objs.view] using h
      | equality k2 =>
        simp only [Con.addrs, List.mem_cons, List.not_mem_nil, or_false] at hm
        simp only [Objs.view, Constraint.equality.injEq, true_and] at h
        rcases hm with rfl | rfl
        · exact h.1
        · exact h.2
    · exact .inl hm
  · intro h
    refine view_congr fun j hj => ?_
    by_cases hjk : j = k
    · subst hjk
      rw [hself]
      rcases h with h | h
      · exact absurd hj h
      · exact h
    · exact hother j hjk

/-- **C120**, a constructor keeps the very object that it is given; anything else becomes a new set. -/
theorem C120_kept (w w' : Objs) (vars : Option Arg) (n : Int) (label : String) (strength : ℚ) (hv : w.Valid)
    (h : (newNHot vars n label strength).run w = .ok () w') :
    ∃ k, w'.cons = w.cons ++ [⟨label, strength, .nHot n.toNat, k⟩] ∧ (∀ j, vars = some (.obj j) → k = j) ∧
      ((∀ a ∈ vars, a.Copied) → w.sets.length ≤ k) := by
  have hk := keepOrNew_run hv vars
  cases hl : checkLabel label with
  | error e =>
    simp only [newNHot, Py.run_bind, hl, Py.run_liftE_error] at h; cases h
  | ok u =>
    cases ho : optSet (vars.map w.value) with
    | error e =>
      simp only [ho] at hk
      simp only [newNHot, Py.run_bind, hl, Py.run_liftE_ok, hk] at h; cases h
    | ok vs =>
      simp only [ho] at hk
      obtain ⟨k, w₁, h1, h2, h3, h4, h5, h6, h7⟩ := hk
      by_cases hn : n ≤ 0
      · simp only [newNHot, Py.run_bind, hl, Py.run_liftE_ok, h1, if_pos hn] at h
        cases h
      · simp only [newNHot, Py.run_bind, hl, Py.run_liftE_ok, h1, if_neg hn, Py.run_pure, addCon, Py.run_modify] at h
        cases h
        exact ⟨k, by simp only [h3], h6, h7⟩

/-- **C120**, careful callers: if constructors only get copies, then whatever the caller does to their own sets in between (and whichever
objects they pass to the editing methods), the constraints are the values that the calls say. -/
theorem C120_careful (mine : List Nat) (w : Objs) (cs : List Constraint) (h : Careful mine w cs) : w.views = cs := by
  suffices h' : w.views = cs ∧ w.Valid ∧ (∀ k ∈ mine, k < w.sets.length) ∧ ∀ c ∈ w.cons, ∀ k ∈ c.addrs, k ∉ mine from h'.1
  have refers : ∀ (w : Objs) (call : Call), call.Copies → (∀ i f a, call ≠ .edit i f a) → call.Refers w := by
    intro w call hc hne
    have : ∀ v : Option Arg, (∀ a ∈ v, a.Copied) → ∀ a ∈ v, a.In w := by
      intro v hv a ha
      have := hv a ha
      cases a with
      | obj k => exact this.elim
      | val b => trivial
    cases call with
    | nHot v _ _ _ => exact this v hc
    | zeroOrOneHot v _ _ => exact this v hc
    | equality v1 v2 _ _ => exact ⟨this v1 hc.1, this v2 hc.2⟩
    | edit i f a => exact absurd rfl (hne i f a)
    | newSet _ => trivial
    | mutate _ _ => trivial
  have step : ∀ {mine : List Nat} {w : Objs} (call : Call), call.Library → call.Copies → w.Valid → (∀ k ∈ mine, k < w.sets.length) →
      (∀ c ∈ w.cons, ∀ k ∈ c.addrs, k ∉ mine) →
      (∀ cs', call.onValues w w.views = .ok cs' → (call.run.run w).state.views = cs') ∧
      (∀ e, call.onValues w w.views = .error e → (call.run.run w).state.views = w.views) ∧ (call.run.run w).state.Valid ∧
      (∀ k ∈ mine, k < (call.run.run w).state.sets.length) ∧ ∀ c ∈ (call.run.run w).state.cons, ∀ k ∈ c.addrs, k ∉ mine := by
    intro mine w call hl hc hv hm hd
    have h := library_run' hv call hl (fun hne => refers w call hc hne)
    cases ho : call.onValues w w.views with
    | error e =>
      simp only [ho] at h
      obtain ⟨w', h1, h2, h3, h4, h5⟩ := h
      rw [h1]
      refine ⟨fun _ hx => (by cases hx), fun _ _ => h3, h4, fun k hk => lt_of_lt_of_le (hm k hk) h2.length, ?_⟩
      simp only [Res.state]
      rw [h5]; exact hd
    | ok cs =>
      simp only [ho] at h
      obtain ⟨w', h1, h2, h3, h4, h5⟩ := h
      rw [h1]
      refine ⟨fun cs' hx => (by cases hx; exact h3), fun _ hx => (by cases hx), h4, fun k hk => lt_of_lt_of_le (hm k hk) h2.length, ?_⟩
      intro c hcm k hk hmine
      rcases h5 hc c hcm k hk with h6 | ⟨c₀, h6, h7⟩
      · have := hm k hmine; omega
      · exact hd c₀ h6 k h7 hmine
  induction h with
  | start => exact ⟨rfl, ⟨by simp, by simp⟩, by simp, by simp⟩
  | @newSet mine w cs s _ hs ih =>
    obtain ⟨h1, h2, h3, h4⟩ := ih
    have hk : Keeps w ((Call.newSet s).run.run w).state := Keeps.alloc hs w.cons
    refine ⟨by rw [hk.views h2 rfl, h1], hk.valid h2 rfl, ?_, ?_⟩
    · intro k hkm
      change k < (w.sets ++ [s]).length
      rw [List.length_append]
      rcases List.mem_cons.mp hkm with rfl | hkm
      · simp
      · have := h3 k hkm; simp; omega
    · intro c hc k hkm hmem
      have hlt := h2.refs c hc k hkm
      rcases List.mem_cons.mp hmem with rfl | hmem
      · omega
      · exact h4 c hc k hkm hmem
  | @mutate mine w cs k s _ hs hk ih =>
    obtain ⟨h1, h2, h3, h4⟩ := ih
    obtain ⟨w', hr, hcons, hiff⟩ := C120_mutate_iff w k s (h3 k hk)
    refine ⟨?_, C120_valid w _ h2 hs trivial, ?_, ?_⟩
    · rw [← h1, hr]
      unfold Objs.views
      simp only [Res.state, hcons]
      exact List.map_congr_left fun c hc => (hiff c hc).mpr (.inl fun hx => h4 c hc k hx hk)
    · intro j hj
      change j < (w.sets.set k s).length
      rw [List.length_set]; exact h3 j hj
    · exact h4
  | returns call _ hl hc ho ih =>
    obtain ⟨h1, h2, h3, h4⟩ := ih
    obtain ⟨g1, -, g3, g4, g5⟩ := step call hl hc h2 h3 h4
    exact ⟨g1 _ (h1 ▸ ho), g3, g4, g5⟩
  | raises call _ hl hc ho ih =>
    obtain ⟨h1, h2, h3, h4⟩ := ih
    obtain ⟨-, g2, g3, g4, g5⟩ := step call hl hc h2 h3 h4
    exact ⟨by rw [g2 _ (h1 ▸ ho), h1], g3, g4, g5⟩

/-- **C120** is false of callers that go on using a set that they gave to a constructor: adding to it changes the constraint. -/
theorem C120_alias_refuted : ¬ ∀ (calls : List Call) (k : Nat) (s : List PVar), (∀ c ∈ calls, c.Sets) → s.Nodup →
    ((⟨[], []⟩ : Objs).after (calls ++ [.mutate k s])).views = ((⟨[], []⟩ : Objs).after calls).views := by
  intro h
  have := h [.newSet [Ex.b0], .nHot (some (.obj 0)) 1 "one" 1] 0 [Ex.b0, Ex.b1]
    (by simp [Call.Sets]) (by decide +kernel)
  exact absurd this (by decide +kernel)

/-- The careful caller's version of the same: the constructor gets a list. -/
example : ((⟨[], []⟩ : Objs).after
      [.newSet [Ex.b0], .nHot (some (.val (.list [some Ex.b0]))) 1 "one" 1, .mutate 0 [Ex.b0, Ex.b1], .edit 0 .add (.obj 0),
        .mutate 0 [Ex.b2]]).views = [.nHot "one" 1 [Ex.b0, Ex.b1] 1] := by
  decide +kernel

/-- Two constraints made of one set: an edit of one does not change the other, and gives it a set of its own. -/
example : ((⟨[], []⟩ : Objs).after
      [.newSet [Ex.b0, Ex.b1], .nHot (some (.obj 0)) 1 "one" 1, .zeroOrOneHot (some (.obj 0)) "two" 1,
        .edit 0 .remove (.val (.var Ex.b1))]).cons = [⟨"one", 1, .nHot 1, 2⟩, ⟨"two", 1, .zeroOrOneHot, 0⟩] := by
  decide +kernel

example : (⟨[[Ex.b0, Ex.b1]], [⟨"one", 1, .nHot 1, 0⟩]⟩ : Objs).Valid := by
  refine ⟨by simp [Con.addrs], ?_⟩
  intro s hs
  rw [List.mem_singleton.mp hs]
  decide +kernel

end Sawatabi.Props
