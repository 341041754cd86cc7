import Verif.Lemmas.NppRun
import Verif.Props.Attenuation
import Mathlib.Tactic.LinearCombination
import Mathlib.Tactic.FieldSimp

/-!
# Lemmas: the number partitioning application with attenuation
-/

namespace Sawatabi.NppStream

open Stream Props

/-! ## Pairs in the order of the table -/

/-- Each number with the ones before it, where those in `pre` are before all. -/
def pairsFrom : List (El ℚ) → List (El ℚ) → List (El ℚ × El ℚ)
  | _, [] => []
  | pre, i :: l => pre.map (fun j => (i, j)) ++ pairsFrom (pre ++ [i]) l

theorem pairsFrom_append (pre a b : List (El ℚ)) : pairsFrom pre (a ++ b) = pairsFrom pre a ++ pairsFrom (pre ++ a) b := by
  induction a generalizing pre with
  | nil => simp [pairsFrom]
  | cons i a ih => simp [pairsFrom, ih]

theorem pairsFrom_filter (keep : El ℚ → Bool) (pre l : List (El ℚ)) :
    (pairsFrom pre l).filter (fun p => keep p.1 && keep p.2) = pairsFrom (pre.filter keep) (l.filter keep) := by
  induction l generalizing pre with
  | nil => simp [pairsFrom]
  | cons i l ih =>
    rw [pairsFrom, List.filter_append, ih, List.filter_map]
    by_cases hi : keep i = true
    · simp [hi, pairsFrom, Function.comp_def, List.filter_append]
    · simp only [Bool.not_eq_true] at hi
      simp [hi, List.filter_append, Function.comp_def]

theorem mem_pairsFrom {pre l : List (El ℚ)} {p : El ℚ × El ℚ} :
    p ∈ pairsFrom pre l ↔ ∃ a b, l = a ++ p.1 :: b ∧ p.2 ∈ pre ++ a := by
  induction l generalizing pre with
  | nil => simp [pairsFrom]
  | cons i l ih =>
    rw [pairsFrom, List.mem_append, ih]
    constructor
    · rintro (h | ⟨a, b, rfl, h⟩)
      · obtain ⟨j, hj, rfl⟩ := List.mem_map.mp h
        exact ⟨[], l, rfl, by simpa using hj⟩
      · exact ⟨i :: a, b, rfl, by simpa using h⟩
    · rintro ⟨a, b, h1, h2⟩
      cases a with
      | nil =>
        rw [List.nil_append] at h1
        cases h1
        exact .inl (List.mem_map.mpr ⟨p.2, by simpa using h2, rfl⟩)
      | cons c a =>
        rw [List.cons_append] at h1
        cases h1
        exact .inr ⟨a, b, rfl, by simpa using h2⟩

theorem rows_order {E pre l : List (El ℚ)} (hE : E = pre ++ l) (h : Increasing E) :
    l.flatMap (fun i => (E.filter fun j => decide (j.ts < i.ts)).map fun j => (i, j)) = pairsFrom pre l := by
  induction l generalizing pre with
  | nil => rfl
  | cons i l ih =>
    rw [List.flatMap_cons, pairsFrom, ih (pre := pre ++ [i]) (by rw [hE]; simp)]
    congr 2
    subst hE
    obtain ⟨_, h2, h3⟩ := List.pairwise_append.mp h
    rw [List.filter_append, List.filter_eq_self.mpr (fun j hj => decide_eq_true (h3 j hj i (by simp)).1),
      List.filter_eq_nil_iff.mpr]
    · simp
    · intro j hj
      simp only [decide_eq_true_eq, not_lt]
      rcases List.mem_cons.mp hj with rfl | hj
      · exact le_rfl
      · exact ((List.pairwise_cons.mp h2).1 j hj).1.le

theorem weighted_pairs (w : ℚ → ℚ) (σ : Assign) (W : List (El ℚ)) :
    ((pairsFrom [] W).map fun p => w p.2.ts * (p.1.data * p.2.data) * (σ (lab p.1) * σ (lab p.2))).sum = weighted w σ W := by
  have snoc : ∀ (l : List (El ℚ)) (e : El ℚ), weighted w σ (l ++ [e]) = weighted w σ l +
      (l.map fun j => w j.ts * (e.data * j.data) * (σ (lab e) * σ (lab j))).sum := by
    intro l e
    induction l with
    | nil => simp [weighted, signedSum]
    | cons a l ih =>
      rw [List.cons_append, weighted, weighted, ih, List.map_cons, List.sum_cons, signedSum_append]
      simp only [signedSum, List.map_cons, List.map_nil, List.sum_cons, List.sum_nil]
      ring
  induction W using List.reverseRecOn with
  | nil => rfl
  | append_singleton W e ih =>
    rw [pairsFrom_append, List.map_append, List.sum_append, ih, snoc]
    simp [pairsFrom, List.map_map, Function.comp_def]

/-! ## The table -/

/-- The column of times. -/
def key : String := "attributes.attn_ts"

theorem key_eq : attrKey "attn_ts" = key := by decide

/-- An interaction with its time is that of a pair. -/
structure Entry (Q : El ℚ × El ℚ → Prop) (x : Row × ℚ) (p : El ℚ × El ℚ) : Prop where
  value : ∀ σ, x.1.inter.value σ = σ (lab p.1) * σ (lab p.2)
  touches : ∀ l, x.1.touches l = true ↔ l = lab p.1 ∨ l = lab p.2
  coef : x.1.coef = .num (-1 * p.1.data * p.2.data)
  time : x.2 = p.2.ts
  fresh : Q p → x.1.scale = .num 1

/-- The interactions that have not been removed, with their times. -/
def alive (rows : List Row) (ts : List ℚ) : List (Row × ℚ) := (rows.zip ts).filter fun x => !x.1.removed

/-- The interactions are those of the pairs `A`; those of pairs in `Q` have scale 1. -/
def Ledger (Q : El ℚ × El ℚ → Prop) (A : List (El ℚ × El ℚ)) (m : LModel) : Prop :=
  ∃ ts : List ℚ, ts.length = m.rows.length ∧
    (dget m.attrCols key = some (ts.map .num) ∨ (m.rows = [] ∧ dget m.attrCols key = none)) ∧
    List.Forall₂ (Entry Q) (alive m.rows ts) A

variable {k : Nat} {P : Nat → Nat → Prop} {F : Assign → ℚ} {m m' : LModel} {Q Q' : El ℚ × El ℚ → Prop} {A : List (El ℚ × El ℚ)}

theorem Ledger.mono (h : Ledger Q A m) (hQ : ∀ p ∈ A, Q' p → Q p) : Ledger Q' A m := by
  obtain ⟨ts, h1, h2, h3⟩ := h
  refine ⟨ts, h1, h2, ?_⟩
  clear h1 h2
  generalize alive m.rows ts = X at h3
  induction h3 with
  | nil => exact .nil
  | @cons x p X A he _ ih =>
    exact .cons ⟨he.value, he.touches, he.coef, he.time, fun hq => he.fresh (hQ p (by simp) hq)⟩
      (ih fun q hq => hQ q (by simp [hq]))

theorem ledger_new (Q : El ℚ × El ℚ → Prop) (id : String) : Ledger Q [] (LModel.new .ising id) :=
  ⟨[], rfl, .inr ⟨rfl, rfl⟩, .nil⟩

theorem ledger_same (h : Ledger Q A m) (h1 : m'.rows = m.rows) (h2 : m'.attrCols = m.attrCols) : Ledger Q A m' := by
  unfold Ledger
  rw [h1, h2]
  exact h

theorem ledger_pair (now : ℚ) (render : El ℚ → String) (hR : m.Rect) (hL : Ledger Q A m) {i j : El ℚ} (hi : i.idx < k)
    (hj : j.idx < k) {u : Unit} (hr : (mapPair now render (xs k) i j).run m = .ok u m') :
    m'.Rect ∧ Ledger Q (A ++ if j.ts < i.ts then [(i, j)] else []) m' := by
  unfold mapPair at hr
  by_cases hts : j.ts < i.ts
  · rw [if_pos hts, item_ok hi, item_ok hj] at hr
    simp only [Py.run_bind, Py.run_liftE] at hr
    rw [addInteraction_run] at hr
    split at hr
    · cases hr
    · rename_i p hp
      obtain ⟨row, ats⟩ := p
      obtain ⟨hd, _, _, hc, hs, _, _, _, _, hrm, hats⟩ := addChecks_ok_iff.mp hp
      obtain ⟨c, a, hrun, hrect, hattrs, hold, hnew, _⟩ := addTail_rect row ats m hR
      rw [hrun] at hr
      cases hr
      refine ⟨hrect, ?_⟩
      rw [if_pos hts]
      obtain ⟨ts, h1, h2, h3⟩ := hL
      have hkey : key ∈ a := (hattrs key).mpr (.inl ⟨("attn_ts", .num j.ts), by rw [hats]; simp [PyAttrs.entries], key_eq.symm⟩)
      obtain ⟨col, hcol⟩ : ∃ col, dget c key = some col := by
        rw [dget_isSome_iff]
        have := hrect.keys
        simp only at this
        rw [this]
        exact hkey
      have hlen : col.length = m.rows.length + 1 := by
        have := hrect.cols _ (dget_mem hcol)
        simpa using this
      have hlast : col[m.rows.length]? = some (.num j.ts) := by
        have := hnew (by rw [hats]; simp [PyAttrs.entries, dkeys]) ("attn_ts", .num j.ts) (by rw [hats]; simp [PyAttrs.entries])
        rw [key_eq, hcol] at this
        exact this
      have hcol' : col = (ts ++ [j.ts]).map PyVal.num := by
        apply List.ext_getElem?
        intro n
        rcases lt_trichotomy n m.rows.length with hn | hn | hn
        · rcases h2 with h2 | ⟨h2, _⟩
          · have hk : key ∈ m.attrs := by rw [← hR.keys]; exact (dget_isSome_iff _ _).mp ⟨_, h2⟩
            have := hold key n hn hk
            rw [hcol] at this
            simp only [Option.bind_some, LModel.cell, h2] at this
            rw [this, List.map_append, List.getElem?_append_left (by simpa [h1] using hn)]
          · rw [h2] at hn
            simp at hn
        · rw [hn, hlast, List.map_append, List.getElem?_append_right (by simp [h1])]
          simp [h1]
        · rw [List.getElem?_eq_none (by omega), List.getElem?_eq_none (by simp [h1]; omega)]
      refine ⟨ts ++ [j.ts], by simp [h1], .inl (by rw [← hcol', hcol]), ?_⟩
      unfold alive at h3 ⊢
      rw [List.zip_append h1.symm, List.filter_append]
      refine List.rel_append h3 ?_
      simp only [List.zip_cons_cons, List.zip_nil_right, List.filter_cons, hrm, Bool.not_false, if_true, List.filter_nil]
      refine .cons ⟨?_, ?_, ?_, rfl, ?_⟩ .nil
      · intro σ
        simp only
        generalize hi' : row.inter = it at hd
        cases hd with
        | pair v w h => rfl
        | swapped v w h => simp only [Inter.value, lab, xv]; ring
      · intro l
        show (row.touches l = true) ↔ _
        unfold Row.touches
        generalize hi' : row.inter = it at hd
        cases hd with
        | pair v w h =>
          simp only [Inter.key0, Inter.key1, Bool.or_eq_true, decide_eq_true_eq, Option.some.injEq, lab, xv]
          exact ⟨fun h => h.imp (fun h => (of_decide_eq_true h).symm) Eq.symm, fun h => h.imp (fun h => decide_eq_true h.symm) Eq.symm⟩
        | swapped v w h =>
          simp only [Inter.key0, Inter.key1, Bool.or_eq_true, decide_eq_true_eq, Option.some.injEq, lab, xv]
          exact ⟨fun h => (h.imp (fun h => (of_decide_eq_true h).symm) Eq.symm).symm,
            fun h => h.symm.imp (fun h => decide_eq_true h.symm) Eq.symm⟩
      · simp only
        generalize row.coef = x at hc
        cases hc
        rfl
      · intro _
        simp only
        generalize row.scale = x at hs
        cases hs
        rfl
  · rw [if_neg hts] at hr
    cases hr
    rw [if_neg hts, List.append_nil]
    exact ⟨hR, hL⟩

theorem ledger_inner (now : ℚ) (render : El ℚ → String) (hR : m.Rect) (hL : Ledger Q A m) {i : El ℚ} (hi : i.idx < k)
    {l : List (El ℚ)} (hl : ∀ j ∈ l, j.idx < k) {u : Unit} (hr : (l.forM fun j => mapPair now render (xs k) i j).run m = .ok u m') :
    m'.Rect ∧ Ledger Q (A ++ (l.filter fun j => decide (j.ts < i.ts)).map fun j => (i, j)) m' := by
  induction l generalizing m A with
  | nil => cases hr; simpa using ⟨hR, hL⟩
  | cons j l ih =>
    rw [Py.run_forM_cons] at hr
    split at hr
    swap
    · cases hr
    rename_i u1 m1 h1
    obtain ⟨r1, l1⟩ := ledger_pair now render hR hL hi (hl j (by simp)) h1
    obtain ⟨r2, l2⟩ := ih r1 l1 (fun x hx => hl x (by simp [hx])) hr
    refine ⟨r2, ?_⟩
    by_cases hts : j.ts < i.ts
    · simpa [hts] using l2
    · simpa [hts] using l2

theorem ledger_outer (now : ℚ) (render : El ℚ → String) (hR : m.Rect) (hL : Ledger Q A m) {els inc : List (El ℚ)}
    (hi : ∀ i ∈ inc, i.idx < k) (hl : ∀ j ∈ els, j.idx < k) {u : Unit}
    (hr : (inc.forM fun i => els.forM fun j => mapPair now render (xs k) i j).run m = .ok u m') :
    m'.Rect ∧ Ledger Q (A ++ inc.flatMap fun i => (els.filter fun j => decide (j.ts < i.ts)).map fun j => (i, j)) m' := by
  induction inc generalizing m A with
  | nil => cases hr; simpa using ⟨hR, hL⟩
  | cons i inc ih =>
    rw [Py.run_forM_cons] at hr
    split at hr
    swap
    · cases hr
    rename_i u1 m1 h1
    obtain ⟨r1, l1⟩ := ledger_inner now render hR hL (hi i (by simp)) hl h1
    obtain ⟨r2, l2⟩ := ih r1 l1 (fun x hx => hi x (by simp [hx])) hr
    refine ⟨r2, ?_⟩
    simpa [List.flatMap_cons] using l2

theorem forall₂_filter {α β : Type} {R : α → β → Prop} {f : α → Bool} {g : β → Bool} {X : List α} {Y : List β}
    (h : List.Forall₂ R X Y) (hfg : ∀ x y, R x y → f x = g y) : List.Forall₂ R (X.filter f) (Y.filter g) := by
  induction h with
  | nil => exact .nil
  | @cons x y X Y hxy _ ih =>
    rw [List.filter_cons, List.filter_cons, hfg x y hxy]
    split
    · exact .cons hxy ih
    · exact ih

theorem ledger_drop (hu : m.names.Nodup) (hL : Ledger Q A m) {o : El ℚ} (ho : o.idx < k) {u : Unit}
    (hr : (dropOne (xs k) o).run m = .ok u m') :
    m'.names.Nodup ∧ Ledger Q (A.filter fun p => decide (lab p.1 ≠ lab o) && decide (lab p.2 ≠ lab o)) m' := by
  unfold dropOne at hr
  rw [item_ok ho] at hr
  simp only [Py.run_bind, Py.run_liftE] at hr
  obtain ⟨cs, rfl⟩ := deleteVariable_ok hu hr
  obtain ⟨ts, h1, h2, h3⟩ := hL
  constructor
  · unfold LModel.names at hu ⊢
    simp only [List.map_map]
    have : ((fun x => x.name) ∘ fun r : Row => if r.touches (xv o.idx).label then rmRow r else r) = fun r => r.name := by
      funext r
      simp only [Function.comp]
      split <;> rfl
    rw [this]
    exact hu
  refine ⟨ts, by simpa using h1, ?_, ?_⟩
  · rcases h2 with h2 | ⟨h2, h4⟩
    · exact .inl h2
    · exact .inr ⟨by simp [h2], h4⟩
  · have : alive (m.rows.map fun r => if r.touches (xv o.idx).label then rmRow r else r) ts =
        (alive m.rows ts).filter fun x => !x.1.touches (lab o) := by
      unfold alive
      show ((m.rows.map fun r => if r.touches (lab o) then rmRow r else r).zip ts).filter _ = _
      clear h1 h2 h3 hu hr
      generalize m.rows = rows
      induction rows generalizing ts with
      | nil => rfl
      | cons r rows ih =>
        cases ts with
        | nil => rfl
        | cons t ts =>
          simp only [List.map_cons, List.zip_cons_cons, List.filter_cons, ih]
          cases ht : r.touches (lab o) <;> cases hrm : r.removed <;> simp [ht, hrm, rmRow]
    simp only [this]
    refine forall₂_filter h3 fun x p hxp => ?_
    have := hxp.touches (lab o)
    rw [Bool.eq_iff_iff]
    simp only [Bool.not_eq_true', Bool.and_eq_true, decide_eq_true_eq]
    rw [← Bool.not_eq_true, this]
    constructor
    · intro h
      exact ⟨fun hc => h (.inl hc.symm), fun hc => h (.inr hc.symm)⟩
    · rintro ⟨h1, h2⟩ (hc | hc)
      · exact h1 hc.symm
      · exact h2 hc.symm

theorem ledger_drops (hu : m.names.Nodup) (hL : Ledger Q A m) {out : List (El ℚ)} (ho : ∀ o ∈ out, o.idx < k) {u : Unit}
    (hr : (out.forM (dropOne (xs k))).run m = .ok u m') :
    Ledger Q (A.filter fun p => decide (lab p.1 ∉ out.map lab) && decide (lab p.2 ∉ out.map lab)) m' := by
  induction out generalizing m A with
  | nil => cases hr; simpa using hL
  | cons o out ih =>
    rw [Py.run_forM_cons] at hr
    split at hr
    swap
    · cases hr
    rename_i u1 m1 h1
    obtain ⟨r1, l1⟩ := ledger_drop hu hL (ho o (by simp)) h1
    have l2 := ih r1 l1 (fun x hx => ho x (by simp [hx])) hr
    rw [List.filter_filter] at l2
    refine cast ?_ l2
    congr 1
    apply List.filter_congr
    intro p _
    rw [Bool.eq_iff_iff]
    simp only [Bool.and_eq_true, decide_eq_true_eq, List.map_cons, List.mem_cons, not_or]
    tauto

theorem ledger_vars (hL : Ledger Q A m) {inc : List (El ℚ)} {x : VArray} (hr : (mappingVars inc).run m = .ok x m') : Ledger Q A m' := by
  have : m'.rows = m.rows ∧ m'.attrCols = m.attrCols := by
    unfold mappingVars at hr
    simp only [Py.run_bind, Py.run_get] at hr
    cases inc with
    | nil =>
      simp only at hr
      split at hr
      · cases hr; exact ⟨rfl, rfl⟩
      · cases hr
    | cons i is =>
      simp only at hr
      rw [appendVars_run] at hr
      split at hr
      · cases hr
      split at hr
      · rw [createVars_run] at hr
        split at hr
        · cases hr
        split at hr
        · cases hr
        · cases hr; exact ⟨rfl, rfl⟩
      · split at hr
        · cases hr
        · cases hr; exact ⟨rfl, rfl⟩
  exact ledger_same hL this.1 this.2

/-! ## The mapping -/

/-- The last number with the one before it. -/
def Newest (W : List (El ℚ)) (p : El ℚ × El ℚ) : Prop := [p.2, p.1] <:+ W

/-- The model of the numbers `W`, with `k` variables so far, whatever the scales of the older pairs are. -/
structure ATracks (k : Nat) (W : List (El ℚ)) (m : LModel) : Prop where
  lt : ∀ e ∈ W, e.idx < k
  mid : ∃ F, Mid k (fun a _ => a < k) F m
  ledger : Ledger (Newest W) (pairsFrom [] W) m

theorem atracks_new (id : String) : ATracks 0 [] (LModel.new .ising id) :=
  ⟨by simp, ⟨_, (tracks_new id).2⟩, ledger_new _ id⟩

theorem amapping_ok {S : Type} (now : ℚ) (render : El ℚ → String) (ps : Option S) {k : Nat} {m : LModel}
    {out kept inc : List (El ℚ)} (h : ATracks k (out ++ kept) m) (hinc : Increasing (out ++ kept ++ inc))
    (hk : ∀ i ∈ inc, k ≤ i.idx) (hpos : inc = [] → 0 < k) :
    ∃ m', (mapping now render ps (kept ++ inc) inc out).run m = .ok m' m' ∧ ATracks (grown k inc) (kept ++ inc) m' := by
  obtain ⟨hlt, ⟨F, hmid⟩, hled⟩ := h
  have hI : Increasing inc := (List.pairwise_append.mp hinc).2.1
  have hE : Increasing (kept ++ inc) := by
    rw [List.append_assoc] at hinc
    exact (List.pairwise_append.mp hinc).2.1
  obtain ⟨m1, hr1, hm1⟩ := mappingVars_ok hmid hI.ordered hk hpos
  have hg : ∀ i ∈ inc, i.idx < grown k inc := by
    intro i hi
    unfold grown
    rw [List.getLast?_eq_some_getLast (List.ne_nil_of_mem hi)]
    show i.idx < (inc.getLast _).idx + 1
    exact Nat.lt_succ_of_le (le_getLast hI.ordered hi)
  have hkg : k ≤ grown k inc := by
    cases inc with
    | nil => exact le_rfl
    | cons i is => exact (hk i (by simp)).trans (hg i (by simp)).le
  have hall : ∀ e ∈ kept ++ inc, e.idx < grown k inc := by
    intro e he
    rcases List.mem_append.mp he with he | he
    · exact (hlt e (by simp [he])).trans_le hkg
    · exact hg e he
  obtain ⟨m2, hr2, hm2⟩ := hm1.outer now render hg (fun i hi => by simp [hi]) hE.ordered hI.ordered
    (fun i hi j _ hP => absurd hP (not_lt.mpr (hk i hi)))
  have hlo : ∀ o ∈ out, o.idx < grown k inc := fun o ho => (hlt o (by simp [ho])).trans_le hkg
  obtain ⟨m3, hr3, hm3⟩ := hm2.drops (out := out) hlo
  refine ⟨m3, ?_, hall, ⟨_, hm3.congr ?_ fun σ => rfl⟩, ?_⟩
  · unfold mapping
    simp only [Py.run_bind, hr1, hr2, hr3, Py.run_get]
  · rintro a b (hp | ⟨i, hi, rfl, _⟩)
    · exact hp.trans_le hkg
    · exact hg i hi
  · have hnew : ∀ p ∈ pairsFrom [] (out ++ kept), p.1 ∉ inc := by
      intro p hp hc
      obtain ⟨a, b, hab, _⟩ := mem_pairsFrom.mp hp
      have := ((List.pairwise_append.mp hinc).2.2 p.1 (by rw [hab]; simp) p.1 hc).2
      omega
    have l1 : Ledger (fun p => Newest (out ++ kept) p ∨ p.1 ∈ inc) (pairsFrom [] (out ++ kept)) m1 :=
      (ledger_vars hled hr1).mono fun p hp hq => hq.resolve_right (hnew p hp)
    obtain ⟨r2, l2⟩ := ledger_outer now render hm1.rect l1 hg hall hr2
    have l3 := ledger_drops hm2.unique l2 hlo hr3
    rw [rows_order (pre := kept) rfl hE] at l3
    have hkeep : ∀ e ∈ kept ++ inc, lab e ∉ out.map lab := by
      intro e he hc
      obtain ⟨o, ho, hl⟩ := List.mem_map.mp hc
      have h1 := lab_inj hl
      rw [List.append_assoc] at hinc
      have h2 := ((List.pairwise_append.mp hinc).2.2 o ho e he).2
      omega
    have hfil : (pairsFrom [] (out ++ kept) ++ pairsFrom kept inc).filter
        (fun p => decide (lab p.1 ∉ out.map lab) && decide (lab p.2 ∉ out.map lab)) = pairsFrom [] (kept ++ inc) := by
      have f1 : out.filter (fun e => decide (lab e ∉ out.map lab)) = [] := by
        rw [List.filter_eq_nil_iff]
        intro o ho
        simp only [decide_eq_true_eq, not_not]
        exact List.mem_map.mpr ⟨o, ho, rfl⟩
      have f2 : kept.filter (fun e => decide (lab e ∉ out.map lab)) = kept :=
        List.filter_eq_self.mpr fun e he => decide_eq_true (hkeep e (by simp [he]))
      have f3 : inc.filter (fun e => decide (lab e ∉ out.map lab)) = inc :=
        List.filter_eq_self.mpr fun e he => decide_eq_true (hkeep e (by simp [he]))
      rw [List.filter_append, pairsFrom_filter (fun e => decide (lab e ∉ out.map lab)),
        pairsFrom_filter (fun e => decide (lab e ∉ out.map lab)), List.filter_append, f1, f2, f3, pairsFrom_append [] kept inc]
      rfl
    rw [hfil] at l3
    refine l3.mono fun p _ hq => ?_
    unfold Newest at hq ⊢
    rcases List.eq_nil_or_concat inc with h0 | ⟨l, z, hz⟩
    · rw [h0, List.append_nil] at hq
      exact .inl (hq.trans (List.suffix_append _ _))
    · right
      obtain ⟨t, ht⟩ := hq
      rw [hz, List.concat_eq_append, ← List.append_assoc] at ht
      have : p.1 = z := by
        have := congrArg List.getLast? ht
        simpa using this
      rw [this, hz]
      simp

/-! ## The attenuation -/

theorem dget_mapSnd {α β : Type} (f : α → β) (l : List (String × α)) (x : String) :
    dget (l.map fun p => (p.1, f p.2)) x = (dget l x).map f := by
  induction l with
  | nil => rfl
  | cons a l ih =>
    simp only [List.map_cons, dget, ih]
    split <;> rfl

theorem Ledger.clean (h : Ledger Q A m) : ∃ X : List (Row × ℚ), List.Forall₂ (Entry Q) X A ∧ (∀ x ∈ X, x.1.removed = false) ∧
    m.cleaned.rows = X.map (·.1) ∧
    (dget m.cleaned.attrCols key = some (X.map fun x => .num x.2) ∨ (X = [] ∧ dget m.cleaned.attrCols key = none)) := by
  obtain ⟨ts, h1, h2, h3⟩ := h
  refine ⟨(alive m.rows ts).map fun x => ({ x.1 with dirty := false }, x.2), ?_, ?_, ?_, ?_⟩
  · rw [List.forall₂_map_left_iff]
    exact h3.imp fun x p h => ⟨h.value, h.touches, h.coef, h.time, h.fresh⟩
  · intro x hx
    obtain ⟨y, hy, rfl⟩ := List.mem_map.mp hx
    simpa using (List.mem_filter.mp hy).2
  · unfold LModel.cleaned alive
    simp only [List.map_map]
    clear h2 h3
    generalize m.rows = rows at h1
    induction rows generalizing ts with
    | nil => rfl
    | cons r rows ih =>
      cases ts with
      | nil => cases h1
      | cons t ts =>
        have := ih (ts := ts) (by simpa using h1)
        simp only [List.zip_cons_cons, List.filter_cons]
        cases r.removed <;> simpa using this
  · have hc : ∀ x, dget m.cleaned.attrCols x = (dget m.attrCols x).map (activeEntries m.rows) := by
      intro x
      unfold LModel.cleaned
      exact dget_mapSnd _ _ _
    rw [hc]
    rcases h2 with h2 | ⟨h2, h4⟩
    · left
      rw [h2, Option.map_some]
      congr 1
      unfold activeEntries alive
      rw [List.map_map]
      clear hc h2 h3
      generalize m.rows = rows at h1
      induction rows generalizing ts with
      | nil => rfl
      | cons r rows ih =>
        cases ts with
        | nil => cases h1
        | cons t ts =>
          have := ih (ts := ts) (by simpa using h1)
          simp only [List.map_cons, List.zip_cons_cons, List.filter_cons]
          cases r.removed <;> simpa using this
    · right
      rw [h4]
      exact ⟨by rw [h2]; rfl, rfl⟩

/-- The physical model of a window, with its energy. -/
structure PhysicE (F : Assign → ℚ) (p : Physical) : Prop where
  mtype : p.mtype = .ising
  keyed : Keyed p
  nonzero : (∀ t ∈ p.linear, t.2 ≠ 0) ∧ ∀ t ∈ p.quad, t.2 ≠ 0
  energy : ∀ σ, p.energy σ = F σ

theorem Mid.physical (h : Mid k P F m) (env : Env) (clks : Nat → Nat → ℚ) (ids : Nat → String) :
    ∃ p, (toPhysical env clks ids []).run m = .ok p m.cleaned ∧ PhysicE F p := by
  obtain ⟨p, m', hp⟩ := (C19_succeeds_partial (env := env) (clks := clks) (ids := ids) h.rect h.unique h.constraints).mpr (show m.Filled [] by
    refine ⟨fun r hr _ => ?_, ?_⟩
    · obtain ⟨⟨q, hq⟩, ⟨q', hq'⟩⟩ := h.numeric r hr
      rw [hq, hq']
      simp [Coef.placeholders]
    · rw [h.offset]
      simp [Coef.placeholders])
  have := C22_only_prunes_partial h.rect h.unique h.noClash hp
  subst this
  obtain ⟨h1, h2, h3, h4, h5⟩ := C26_no_duplicates h.ordered (by simp) hp
  refine ⟨p, hp, ?_, toPhysical_keyed h.ordered (by simp) hp, ⟨h4, h5⟩, fun σ => ?_⟩
  · obtain ⟨bs, m₁, g, off, m₂, hc⟩ := toPhysical_ok hp
    have hl := hc.loop
    rw [h.constraints] at hl
    cases hl
    rw [hc.result]
    exact h.mtype
  · rw [C19_energy_partial h.rect h.constraints hp (ρ := fun _ => 0) (by intro n q hn; cases hn), h.energy]

/-- A row with another scale. -/
def rescale (w : ℚ → ℚ) (x : Row × ℚ) : Row := { x.1 with scale := .num (w x.2) }

theorem Mid.rescaled (h : Mid k P F m) {X : List (Row × ℚ)} (hX : m.rows = X.map (·.1)) (w : ℚ → ℚ) {G : Assign → ℚ}
    (hG : ∀ ρ σ, ({ m with rows := X.map (rescale w) } : LModel).energy ρ σ = G σ) : Mid k P G { m with rows := X.map (rescale w) } := by
  have hmem : ∀ x ∈ X, x.1 ∈ m.rows := fun x hx => by rw [hX]; exact List.mem_map.mpr ⟨x, hx, rfl⟩
  have hn : (X.map (rescale w)).map (·.name) = m.names := by
    unfold LModel.names
    rw [hX, List.map_map, List.map_map]
    rfl
  refine ⟨h.mtype, h.constraints, h.offset, rect_same h.rect rfl (by simp [hX]) rfl rfl, ?_, ?_, ?_, h.vars, ?_, hG⟩
  · unfold LModel.names
    rw [hn]
    exact h.unique
  · intro r hr
    obtain ⟨x, hx, rfl⟩ := List.mem_map.mp hr
    exact h.ordered x.1 (hmem x hx)
  · intro r hr
    obtain ⟨x, hx, rfl⟩ := List.mem_map.mp hr
    exact ⟨(h.numeric x.1 (hmem x hx)).1, _, rfl⟩
  · intro n hn'
    unfold LModel.names at hn'
    rw [hn] at hn'
    exact h.names n hn'

theorem rescaled_energy {w : ℚ → ℚ} {X : List (Row × ℚ)} (h : List.Forall₂ (Entry Q) X A) (hr : ∀ x ∈ X, x.1.removed = false)
    (ρ : PEnv) (σ : Assign) :
    ((X.map (rescale w)).map (Row.term ρ σ)).sum =
      -(A.map fun p => w p.2.ts * (p.1.data * p.2.data) * (σ (lab p.1) * σ (lab p.2))).sum := by
  induction h with
  | nil => simp
  | @cons x p X A hxp _ ih =>
    simp only [List.map_cons, List.sum_cons, ih fun y hy => hr y (by simp [hy])]
    have hrm := hr x (by simp)
    have : (rescale w x).term ρ σ = -1 * p.1.data * p.2.data * w p.2.ts * (σ (lab p.1) * σ (lab p.2)) := by
      unfold Row.term
      rw [show (rescale w x).removed = x.1.removed from rfl, hrm]
      simp only [Bool.false_eq_true, if_false]
      rw [show (rescale w x).inter.value σ = x.1.inter.value σ from rfl, hxp.value,
        show (rescale w x).coef = x.1.coef from rfl, hxp.coef, show (rescale w x).scale = .num (w x.2) from rfl, hxp.time]
      rfl
    rw [this]
    ring

theorem forall₂_mem {α β : Type} {R : α → β → Prop} {X : List α} {Y : List β} (h : List.Forall₂ R X Y) :
    (∀ x ∈ X, ∃ y ∈ Y, R x y) ∧ ∀ y ∈ Y, ∃ x ∈ X, R x y := by
  induction h with
  | nil => simp
  | @cons x y X Y hxy _ ih =>
    refine ⟨fun a ha => ?_, fun b hb => ?_⟩
    · rcases List.mem_cons.mp ha with rfl | ha
      · exact ⟨y, by simp, hxy⟩
      · obtain ⟨b, hb, hab⟩ := ih.1 a ha
        exact ⟨b, by simp [hb], hab⟩
    · rcases List.mem_cons.mp hb with rfl | hb
      · exact ⟨x, by simp, hxy⟩
      · obtain ⟨a, ha, hab⟩ := ih.2 b hb
        exact ⟨a, by simp [ha], hab⟩

variable {W : List (El ℚ)} {env : Env} {clks : Nat → Nat → ℚ} {ids : Nat → String} {ms : ℚ}

theorem attenuate_ok (h : ATracks k W m) (hW : Increasing W) (h2 : 2 ≤ W.length) :
    ∃ m₂, (attenuate env clks ids key ms).run m = .ok () m₂ ∧ ATracks k W m₂ ∧
      Mid k (fun a _ => a < k) (fun σ => weighted (weight ms W) σ W) m₂ := by
  obtain ⟨hlt, ⟨F, hmid⟩, hled⟩ := h
  obtain ⟨p, hp, _⟩ := hmid.physical env clks ids
  obtain ⟨X, x1, x2, x3, x4⟩ := hled.clean
  obtain ⟨U, z, rfl⟩ : ∃ U z, W = U ++ [z] := by
    rcases List.eq_nil_or_concat W with h0 | ⟨l, z, hl⟩
    · rw [h0] at h2; cases h2
    · exact ⟨l, z, by rw [hl, List.concat_eq_append]⟩
  obtain ⟨a, U', hU⟩ : ∃ a U', U = a :: U' := by
    cases U with
    | nil => simp at h2
    | cons a U' => exact ⟨a, U', rfl⟩
  obtain ⟨V, b, hV⟩ : ∃ V b, U = V ++ [b] := by
    rcases List.eq_nil_or_concat U with h0 | ⟨l, z, hl⟩
    · rw [h0] at hU; cases hU
    · exact ⟨l, z, by rw [hl, List.concat_eq_append]⟩
  have hUinc : Increasing U := (List.pairwise_append.mp hW).1
  have hlow : ∀ j ∈ U, a.ts ≤ j.ts := by
    intro j hj
    rw [hU] at hj hUinc
    rcases List.mem_cons.mp hj with rfl | hj
    · exact le_rfl
    · exact ((List.pairwise_cons.mp hUinc).1 j hj).1.le
  have hhigh : ∀ j ∈ U, j.ts ≤ b.ts := by
    intro j hj
    rw [hV] at hj hUinc
    rcases List.mem_append.mp hj with hj | hj
    · exact ((List.pairwise_append.mp hUinc).2.2 j hj b (by simp)).1.le
    · rw [List.mem_singleton.mp hj]
  have hA1 : ∀ q ∈ pairsFrom [] (U ++ [z]), q.2 ∈ U := by
    intro q hq
    obtain ⟨c, d, hcd, hq2⟩ := mem_pairsFrom.mp hq
    have : U = c ++ (q.1 :: d).dropLast := by
      have := congrArg List.dropLast hcd
      rw [List.dropLast_concat, List.dropLast_append_of_ne_nil (by simp)] at this
      exact this
    rw [this]
    simp only [List.nil_append] at hq2
    simp [hq2]
  have hA2 : ∀ j ∈ U, (z, j) ∈ pairsFrom [] (U ++ [z]) := fun j hj => mem_pairsFrom.mpr ⟨U, [], rfl, by simpa using hj⟩
  have ht1 : ∀ t ∈ X.map (·.2), ∃ j ∈ U, t = j.ts := by
    intro t ht
    obtain ⟨x, hx, rfl⟩ := List.mem_map.mp ht
    obtain ⟨q, hq, he⟩ := (forall₂_mem x1).1 x hx
    exact ⟨q.2, hA1 q hq, he.time⟩
  have ht2 : ∀ j ∈ U, j.ts ∈ X.map (·.2) := by
    intro j hj
    obtain ⟨x, hx, he⟩ := (forall₂_mem x1).2 _ (hA2 j hj)
    exact List.mem_map.mpr ⟨x, hx, he.time⟩
  have haU : a ∈ U := by rw [hU]; simp
  have hbU : b ∈ U := by rw [hV]; simp
  obtain ⟨t0, ts, hts⟩ : ∃ t0 ts, X.map (·.2) = t0 :: ts := List.exists_cons_of_ne_nil (List.ne_nil_of_mem (ht2 a haU))
  have hcol : dget m.cleaned.attrCols key = some ((t0 :: ts).map .num) := by
    rcases x4 with x4 | ⟨x4, _⟩
    · rw [x4, ← hts, List.map_map]; rfl
    · rw [x4] at hts; cases hts
  obtain ⟨lo, l1, l2, l3⟩ := pyMin_num t0 ts
  obtain ⟨hi, g1, g2, g3⟩ := pyMax_num t0 ts
  rw [← hts] at l2 l3 g2 g3
  have hlo : lo = a.ts := by
    obtain ⟨j, hj, e⟩ := ht1 lo l2
    exact le_antisymm (l3 _ (ht2 a haU)) (e ▸ hlow j hj)
  have hhi : hi = b.ts := by
    obtain ⟨j, hj, e⟩ := ht1 hi g2
    exact le_antisymm (e ▸ hhigh j hj) (g3 _ (ht2 b hbU))
  subst hlo hhi
  have hrun := (attenuate_run (minScale := ms) hmid.rect hp hcol (by
      intro v hv
      obtain ⟨q, _, rfl⟩ := List.mem_map.mp hv
      trivial) l1 g1 trivial trivial).2
  have hw : ∀ t, weight ms (U ++ [z]) t = if a.ts < b.ts then ms + (1 - ms) * ((t - a.ts) / (b.ts - a.ts)) else 1 := by
    intro t
    unfold weight
    rw [List.dropLast_concat, show (U ++ [z]).head? = some a by rw [hU]; rfl, show U.getLast? = some b by rw [hV]; simp]
  have hrows : (attenuate env clks ids key ms).run m =
      .ok () { m.cleaned with rows := X.map (rescale (weight ms (U ++ [z]))) } := by
    rw [hrun]
    simp only
    by_cases hab : a.ts < b.ts
    · rw [if_pos hab]
      congr 2
      rw [x3, ← hts, List.map_map, List.zipWith_map, List.zipWith_self]
      apply List.map_congr_left
      intro x _
      have hne : b.ts - a.ts ≠ 0 := by linarith
      simp only [Function.comp, rescale, scaleFor, hw, if_pos hab]
      congr 2
      field_simp
      ring
    · rw [if_neg hab]
      congr 1
      have hone : ∀ x ∈ X, x.1.scale = .num 1 := by
        intro x hx
        obtain ⟨q, hq, he⟩ := (forall₂_mem x1).1 x hx
        apply he.fresh
        have hU1 : U = [a] := by
          rw [hU] at hV hUinc ⊢
          cases U' with
          | nil => rfl
          | cons c U' =>
            exfalso
            apply hab
            have : b ∈ c :: U' := by
              have := congrArg List.getLast? hV
              rw [List.getLast?_append, List.getLast?_singleton] at this
              simp only [Option.some_or] at this
              have hm := List.mem_of_getLast? this
              rw [List.getLast?_cons_cons] at this
              exact List.mem_of_getLast? this
            exact ((List.pairwise_cons.mp hUinc).1 b this).1
        rw [hU1] at hq ⊢
        simp [pairsFrom] at hq
        subst hq
        exact List.suffix_refl _
      have : X.map (rescale (weight ms (U ++ [z]))) = m.cleaned.rows := by
        rw [x3]
        apply List.map_congr_left
        intro x hx
        simp only [rescale, hw, if_neg hab]
        rw [← hone x hx]
      rw [this]
  have hmid2 := hmid.cleaned.rescaled x3 (weight ms (U ++ [z])) (G := fun σ => weighted (weight ms (U ++ [z])) σ (U ++ [z])) (by
    intro ρ σ
    unfold LModel.energy
    simp only [rescaled_energy x1 x2, weighted_pairs]
    rw [show m.cleaned.offset = m.offset from rfl, hmid.offset]
    simp [Coef.eval])
  refine ⟨_, hrows, ⟨hlt, ⟨_, hmid2⟩, ?_⟩, hmid2⟩
  · refine ⟨X.map (·.2), by simp, .inl (by rw [hts]; exact hcol), ?_⟩
    have : alive (X.map (rescale (weight ms (U ++ [z])))) (X.map (·.2)) = X.map fun x => (rescale (weight ms (U ++ [z])) x, x.2) := by
      unfold alive
      rw [List.zip_map']
      rw [List.filter_eq_self.mpr]
      intro x hx
      obtain ⟨y, hy, rfl⟩ := List.mem_map.mp hx
      simp [rescale, x2 y hy]
    simp only [this]
    rw [List.forall₂_map_left_iff]
    refine x1.imp fun x q h => ⟨h.value, h.touches, h.coef, h.time, fun hq => ?_⟩
    have hqb : q.2 = b := by
      obtain ⟨t, ht⟩ := hq
      rw [hV] at ht
      have := congrArg (fun l => l.dropLast.getLast?) ht
      simpa [List.dropLast_append_of_ne_nil] using this
    simp only [rescale, hw, h.time, hqb]
    by_cases hab : a.ts < b.ts
    · rw [if_pos hab, div_self (by linarith)]
      congr 1
      ring
    · rw [if_neg hab]

theorem attenuate_short (h : ATracks k W m) (h2 : W.length < 2) :
    ∃ e, (e = .keyError ∨ e = .valueError) ∧ (attenuate env clks ids key ms).run m = .error e m.cleaned := by
  obtain ⟨hlt, ⟨F, hmid⟩, hled⟩ := h
  obtain ⟨p, hp, _⟩ := hmid.physical env clks ids
  have hA : pairsFrom [] W = [] := by
    match W, h2 with
    | [], _ => rfl
    | [_], _ => rfl
  rw [hA] at hled
  obtain ⟨X, x1, x2, x3, x4⟩ := hled.clean
  cases x1
  unfold attenuate
  simp only [Py.run_bind, hp, Py.run_get]
  rcases x4 with x4 | ⟨_, x4⟩
  · exact ⟨_, .inr rfl, by rw [x4]; rfl⟩
  · exact ⟨_, .inl rfl, by rw [x4]; rfl⟩

end Sawatabi.NppStream
