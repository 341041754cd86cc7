import Verif.Spec.NppFilter
import Verif.Lemmas.NppRun

/-!
# Lemmas: number partitioning where a filter decides which numbers stay
-/

namespace Sawatabi.NppStream

open Stream Props

variable {k : Nat} {P : Nat → Nat → Prop} {F : Assign → ℚ} {m : LModel} {W S : List (El ℚ)} {G : List (El ℚ × El ℚ)}
  {keep : El ℚ → Bool} {h : Held}

/-! ## Lists -/

theorem increasing_eq {l : List (El ℚ)} (hl : Ordered l) {a b : El ℚ} (ha : a ∈ l) (hb : b ∈ l) (h : a.idx = b.idx) : a = b := by
  induction l with
  | nil => cases ha
  | cons c l ih =>
    obtain ⟨h1, h2⟩ := List.pairwise_cons.mp hl
    rcases List.mem_cons.mp ha with rfl | ha' <;> rcases List.mem_cons.mp hb with rfl | hb'
    · rfl
    · have := (h1 b hb').2; omega
    · have := (h1 a ha').2; omega
    · exact ih h2 ha' hb'

theorem increasing_lt {l : List (El ℚ)} (hl : Increasing l) {a b : El ℚ} (ha : a ∈ l) (hb : b ∈ l) (h : a ≠ b) :
    a.ts < b.ts ∨ b.ts < a.ts := by
  induction l with
  | nil => cases ha
  | cons c l ih =>
    obtain ⟨h1, h2⟩ := List.pairwise_cons.mp hl
    rcases List.mem_cons.mp ha with rfl | ha' <;> rcases List.mem_cons.mp hb with rfl | hb'
    · exact absurd rfl h
    · exact .inl (h1 b hb').1
    · exact .inr (h1 a ha').1
    · exact ih h2 ha' hb'

theorem sum_single {α : Type} {l : List α} (hnd : l.Nodup) {x : α} (hx : x ∈ l) {f : α → ℚ} (hz : ∀ y ∈ l, y ≠ x → f y = 0) :
    (l.map f).sum = f x := by
  induction l with
  | nil => cases hx
  | cons a l ih =>
    obtain ⟨h1, h2⟩ := List.nodup_cons.mp hnd
    rw [List.map_cons, List.sum_cons]
    rcases List.mem_cons.mp hx with rfl | hx'
    · rw [List.sum_eq_zero, add_zero]
      intro q hq
      obtain ⟨y, hy, rfl⟩ := List.mem_map.mp hq
      exact hz y (by simp [hy]) (fun hc => h1 (hc ▸ hy))
    · rw [ih h2 hx' (fun y hy => hz y (by simp [hy])), hz a (by simp) (fun hc => h1 (hc ▸ hx')), zero_add]

theorem mem_takeWhile_before {l : List (El ℚ)} (hl : Increasing l) {x : El ℚ} (hx : x ∈ l) :
    x ∈ l.takeWhile (fun e => !keep e) ↔ ∀ y ∈ l, keep y = true → x.ts < y.ts := by
  induction l with
  | nil => cases hx
  | cons a l ih =>
    obtain ⟨h1, h2⟩ := List.pairwise_cons.mp hl
    rw [List.takeWhile_cons]
    by_cases ha : keep a = true
    · simp only [ha, Bool.not_true, Bool.false_eq_true, if_false, List.not_mem_nil, false_iff]
      intro hc
      have := hc a (by simp) ha
      rcases List.mem_cons.mp hx with rfl | hx'
      · exact lt_irrefl _ this
      · exact absurd (h1 x hx').1 (not_lt.mpr this.le)
    · simp only [ha, Bool.not_false, if_true, List.mem_cons]
      rcases List.mem_cons.mp hx with rfl | hx'
      · refine iff_of_true (.inl rfl) ?_
        rintro y (rfl | hy) hk
        · exact absurd hk ha
        · exact (h1 y hy).1
      · rw [ih h2 hx']
        constructor
        · rintro (rfl | hc) y hy hk
          · rcases hy with rfl | hy
            · exact absurd hk ha
            · exact (h1 y hy).1
          · rcases hy with rfl | hy
            · exact absurd hk ha
            · exact hc y hy hk
        · exact fun hc => .inr fun y hy hk => hc y (.inr hy) hk

/-! ## What is held -/

/-- The numbers held are among those seen, and all pairs of them interact. -/
structure Held.Inv (h : Held) (S : List (El ℚ)) : Prop where
  sub : h.els.Sublist S
  seen : ∀ p ∈ h.live, p.1 ∈ S ∧ p.2 ∈ S ∧ p.1.ts < p.2.ts
  nodup : h.live.Nodup
  all : ∀ j ∈ h.els, ∀ i ∈ h.els, j.ts < i.ts → (j, i) ∈ h.live

theorem mem_next {part : List (El ℚ)} {p : El ℚ × El ℚ} : p ∈ (h.next keep part).live ↔
    (p ∈ h.live ∧ p.1 ∉ h.els.takeWhile (fun e => !keep e) ∧ p.2 ∉ h.els.takeWhile (fun e => !keep e)) ∨
    (p.2 ∈ part ∧ p.1 ∈ (h.next keep part).els ∧ p.1.ts < p.2.ts) := by
  obtain ⟨j, i⟩ := p
  simp only [Held.next, List.mem_append, List.mem_filter, List.mem_flatMap, List.mem_map, decide_eq_true_eq]
  constructor
  · rintro (hp | ⟨i', hi', j', hj', he⟩)
    · exact .inl hp
    · cases he
      exact .inr ⟨hi', hj'⟩
  · rintro (hp | ⟨h1, h2⟩)
    · exact .inl hp
    · exact .inr ⟨i, h1, j, h2, rfl⟩

theorem Held.Inv.next (hi : h.Inv S) {part : List (El ℚ)} (hS : Increasing (S ++ part)) : (h.next keep part).Inv (S ++ part) := by
  have hS' := List.pairwise_append.mp hS
  have hels : Increasing h.els := hS'.1.sublist hi.sub
  have hsub : (h.next keep part).els.Sublist (S ++ part) :=
    (List.filter_sublist.trans hi.sub).append (List.Sublist.refl part)
  refine ⟨hsub, ?_, ?_, ?_⟩
  · intro p hp
    rcases mem_next.mp hp with ⟨h1, _⟩ | ⟨h1, h2, h3⟩
    · obtain ⟨a, b, c⟩ := hi.seen p h1
      exact ⟨by simp [a], by simp [b], c⟩
    · exact ⟨hsub.subset h2, by simp [h1], h3⟩
  · unfold Held.next
    rw [List.nodup_append]
    refine ⟨hi.nodup.filter _, ?_, ?_⟩
    · rw [List.nodup_flatMap]
      have hnd : ∀ {l : List (El ℚ)}, Increasing l → l.Nodup := fun hl => hl.imp fun {a b} hab hc => by
        subst hc
        exact lt_irrefl _ hab.1
      refine ⟨fun i _ => ?_, ?_⟩
      · refine List.Nodup.map ?_ ((hnd (hS.sublist hsub)).filter _)
        intro a b hab
        exact (Prod.mk.inj hab).1
      · refine (hnd hS'.2.1).imp fun {a b} hab => ?_
        show List.Disjoint _ _
        rw [List.disjoint_left]
        intro x hx hy
        obtain ⟨_, _, rfl⟩ := List.mem_map.mp hx
        obtain ⟨_, _, he⟩ := List.mem_map.mp hy
        exact hab (Prod.mk.inj he).2.symm
    · rintro x hx y hy rfl
      obtain ⟨_, h2, _⟩ := hi.seen x (List.mem_of_mem_filter hx)
      obtain ⟨i, hi', hx'⟩ := List.mem_flatMap.mp hy
      obtain ⟨j, _, rfl⟩ := List.mem_map.mp hx'
      exact absurd (hS'.2.2 i h2 i hi').1 (lt_irrefl _)
  · intro j hj i hi' hlt
    rw [mem_next]
    have hi0 := hi'
    unfold Held.next at hj hi'
    simp only [List.mem_append, List.mem_filter] at hj hi'
    rcases hi' with ⟨i1, i2⟩ | i1
    · rcases hj with ⟨j1, j2⟩ | j1
      · refine .inl ⟨hi.all j j1 i i1 hlt, ?_, ?_⟩
        · rw [mem_takeWhile_before hels j1]
          exact fun hc => lt_irrefl _ (hc j j1 j2)
        · rw [mem_takeWhile_before hels i1]
          exact fun hc => lt_irrefl _ (hc i i1 i2)
      · exact absurd hlt (not_lt.mpr (hS'.2.2 i (hi.sub.subset i1) j j1).1.le)
    · refine .inr ⟨i1, ?_, hlt⟩
      unfold Held.next
      simp only [List.mem_append, List.mem_filter]
      exact hj

theorem Held.Inv.start : Held.Inv ⟨[], []⟩ [] := ⟨List.Sublist.refl _, by simp, List.nodup_nil, by simp⟩

/-! ## Energies -/

theorem liveSum_append (σ : Assign) (G G' : List (El ℚ × El ℚ)) : liveSum σ (G ++ G') = liveSum σ G + liveSum σ G' := by
  simp [liveSum]

theorem liveSum_new (σ : Assign) (els part : List (El ℚ)) :
    liveSum σ (part.flatMap fun i => (els.filter fun j => decide (j.ts < i.ts)).map fun j => (j, i)) = (part.map (pairsOf σ els)).sum := by
  induction part with
  | nil => simp [liveSum]
  | cons i part ih =>
    rw [List.flatMap_cons, liveSum_append, ih, List.map_cons, List.sum_cons]
    congr 1
    unfold liveSum pairsOf
    rw [List.map_map]
    congr 1
    apply List.map_congr_left
    intro j _
    simp only [Function.comp]
    ring

theorem liveSum_zeroed (σ : Assign) {out : List (El ℚ)} (hG : ∀ p ∈ G, p.1 ∈ S ∧ p.2 ∈ S) (hS : Increasing S)
    (hout : ∀ o ∈ out, o ∈ S) :
    liveSum (zeroed σ out) G = liveSum σ (G.filter fun p => decide (p.1 ∉ out ∧ p.2 ∉ out)) := by
  have hz : ∀ e ∈ S, zeroed σ out (lab e) = if e ∈ out then 0 else σ (lab e) := by
    intro e he
    unfold zeroed
    by_cases h1 : e ∈ out
    · rw [if_pos h1, if_pos (List.mem_map.mpr ⟨e, h1, rfl⟩)]
    · rw [if_neg h1, if_neg]
      intro hc
      obtain ⟨o, ho, hl⟩ := List.mem_map.mp hc
      exact h1 (increasing_eq hS.ordered (hout o ho) he (lab_inj hl) ▸ ho)
  induction G with
  | nil => rfl
  | cons p G ih =>
    have ih := ih fun q hq => hG q (by simp [hq])
    obtain ⟨h1, h2⟩ := hG p (by simp)
    unfold liveSum at ih ⊢
    rw [List.map_cons, List.sum_cons, ih, hz _ h1, hz _ h2, List.filter_cons]
    by_cases a : p.1 ∈ out
    · simp [a]
    · by_cases b : p.2 ∈ out
      · simp [b]
      · simp [a, b]

/-! ## The mapping, for any energy -/

theorem mapping_mid {T : Type} (now : ℚ) (render : El ℚ → String) (ps : Option T) {els inc out : List (El ℚ)}
    (hm : Mid k (fun a _ => a < k) F m) (hE : Ordered els) (hI : Ordered inc) (hsub : ∀ i ∈ inc, i ∈ els)
    (hk : ∀ i ∈ inc, k ≤ i.idx) (hpos : inc = [] → 0 < k) (hout : ∀ o ∈ out, o.idx < k) :
    ∃ m', (mapping now render ps els inc out).run m = .ok m' m' ∧
      Mid (grown k inc) (fun a _ => a < grown k inc)
        (fun σ => F (zeroed σ out) + (inc.map (pairsOf (zeroed σ out) els)).sum) m' := by
  obtain ⟨m1, hr1, hm1⟩ := mappingVars_ok hm hI hk hpos
  have hg : ∀ i ∈ inc, i.idx < grown k inc := by
    intro i hi
    unfold grown
    rw [List.getLast?_eq_some_getLast (List.ne_nil_of_mem hi)]
    show i.idx < (inc.getLast _).idx + 1
    exact Nat.lt_succ_of_le (le_getLast hI hi)
  have hkg : k ≤ grown k inc := by
    cases inc with
    | nil => exact le_rfl
    | cons i is => exact (hk i (by simp)).trans (hg i (by simp)).le
  obtain ⟨m2, hr2, hm2⟩ := hm1.outer now render hg hsub hE hI
    (fun i hi j _ hP => absurd hP (not_lt.mpr (hk i hi)))
  obtain ⟨m3, hr3, hm3⟩ := hm2.drops (out := out) (fun o ho => (hout o ho).trans_le hkg)
  refine ⟨m3, ?_, hm3.congr ?_ (fun _ => rfl)⟩
  · unfold mapping
    simp only [Py.run_bind, hr1, hr2, hr3, Py.run_get]
  · rintro a b (hp | ⟨i, hi, rfl, _⟩)
    · exact hp.trans_le hkg
    · exact hg i hi

/-- The physical model of some energy. -/
structure PhysicOf (F : Assign → ℚ) (p : Physical) : Prop where
  mtype : p.mtype = .ising
  keyed : Keyed p
  nonzero : (∀ t ∈ p.linear, t.2 ≠ 0) ∧ ∀ t ∈ p.quad, t.2 ≠ 0
  energy : ∀ σ, p.energy σ = F σ

theorem Mid.physicOf (h : Mid k P F m) (env : Env) (clks : Nat → Nat → ℚ) (ids : Nat → String) :
    ∃ p, (toPhysical env clks ids []).run m = .ok p m.cleaned ∧ PhysicOf F p ∧ Mid k P F m.cleaned := by
  obtain ⟨p, m', hp⟩ := (C19_succeeds_partial (env := env) (clks := clks) (ids := ids) h.rect h.unique h.constraints).mpr (show m.Filled [] by
    refine ⟨fun r hr _ => ?_, ?_⟩
    · obtain ⟨⟨q, hq⟩, ⟨q', hq'⟩⟩ := h.numeric r hr
      rw [hq, hq']
      simp [Coef.placeholders]
    · rw [h.offset]
      simp [Coef.placeholders])
  have := C22_only_prunes_partial h.rect h.unique h.noClash hp
  subst this
  obtain ⟨h1, h2, h3, h4, h5⟩ := C26_no_duplicates h.ordered (by simp) hp
  refine ⟨p, hp, ⟨?_, toPhysical_keyed h.ordered (by simp) hp, ⟨h4, h5⟩, fun σ => ?_⟩, h.cleaned⟩
  · obtain ⟨bs, m₁, g, off, m₂, hc⟩ := toPhysical_ok hp
    have hl := hc.loop
    rw [h.constraints] at hl
    cases hl
    rw [hc.result]
    exact h.mtype
  · rw [C19_energy_partial h.rect h.constraints hp (ρ := fun _ => 0) (by intro n q hn; cases hn), h.energy]

/-! ## One window -/

variable {now : ℚ} {render : El ℚ → String} {env : Env} {clks : Nat → Nat → ℚ} {ids : Nat → String}
  {solver : Physical → Except Err (List (Sample × ℚ))} {initial : LModel}
  {st : St LModel (List (Sample × ℚ)) ℚ}

/-- The model of what is held. -/
def Carries (k : Nat) (h : Held) (m : LModel) : Prop := Mid k (fun a _ => a < k) (fun σ => liveSum σ h.live) m

theorem filterE_ok (l : List (El ℚ)) : filterE (fun x => .ok (keep x)) l = .ok (l.filter keep) := by
  induction l with
  | nil => rfl
  | cons a l ih =>
    unfold filterE
    rw [ih]
    by_cases ha : keep a = true
    · simp [ha]; rfl
    · simp [ha]; rfl

theorem filter_run {ws : List (Bool × Win ℚ)} {parts : List (List (El ℚ))}
    (hp : List.Forall₂ (fun w part => w.2.elements.Perm part ∧ part ≠ []) ws parts) (hI : Increasing (S ++ parts.flatten))
    (ho : InOrder (st.ts.getD (-1)) (ws.map (·.2))) (hel : st.elements.getD [] = h.els) (hinv : h.Inv S)
    (ht : Carries k h (st.model.getD initial)) (hlt : ∀ e ∈ S, e.idx < k) (hbound : ∀ x ∈ parts.flatten, k ≤ x.idx) :
    ∃ os st' new, (processAll (.«partial» fun x => .ok (keep x)) (fns now render env clks ids solver) initial ws).run st = .ok os st' ∧
      solveArgs st'.calls = solveArgs st.calls ++ new ∧ os.length = ws.length ∧ new.length = ws.length ∧
      (∀ (i : Nat) o, os[i]? = some o → ∃ p, PhysicOf (fun σ => liveSum σ ((parts.take (i + 1)).foldl (Held.next keep) h).live) p ∧
        o = [outputOf solver p ((parts.take (i + 1)).foldl (Held.next keep) h).els]) ∧
      (∀ (i : Nat) c, new[i]? = some c → c.2 = ((parts.take (i + 1)).foldl (Held.next keep) h).els ∧
        ∀ ρ σ, c.1.energy ρ σ = liveSum σ ((parts.take (i + 1)).foldl (Held.next keep) h).live) := by
  induction hp generalizing st k h S with
  | nil => exact ⟨[], st, [], rfl, by simp, rfl, rfl, by simp, by simp⟩
  | @cons w part ws parts hw hrest ih =>
    obtain ⟨hperm, hne⟩ := hw
    obtain ⟨ho1, ho2⟩ := ho
    rw [List.flatten_cons, ← List.append_assoc] at hI
    have hI1 := (List.pairwise_append.mp hI).1
    have hI2 := List.pairwise_append.mp hI1
    have hels : Increasing h.els := hI2.1.sublist hinv.sub
    have hinv' := hinv.next (keep := keep) hI1
    have hcurI : Increasing (h.els.filter keep ++ part) := hI1.sublist hinv'.sub
    have htimed : Timed (h.els.filter keep ++ part) := hcurI.imp fun {x y} h => h.1.le
    have hcur : currentElements (.«partial» fun x => .ok (keep x) : Algorithm LModel ℚ) h.els (sorted w.2.elements) =
        .ok (h.els.filter keep ++ part) := by
      show (filterE _ _ >>= fun kept => pure (sorted (kept ++ sorted w.2.elements))) = _
      rw [filterE_ok, Except.bind_ok, sorted_increasing hcurI.ordered (((sorted_perm _).trans hperm).append_left _)]
      rfl
    have hk : ∀ i ∈ part, k ≤ i.idx := fun i hi => hbound i (by simp [hi])
    obtain ⟨c, cs, hc⟩ := List.exists_cons_of_ne_nil (show h.els.filter keep ++ part ≠ [] by simp [hne])
    have hout : resolveOutgoing h.els (h.els.filter keep ++ part) = .ok (h.els.takeWhile fun e => !keep e) := by
      rw [hc, outgoing_timed (hels.imp fun {x y} h => h.1.le)]
      congr 1
      have hcm : c ∈ h.els.filter keep ++ part := by rw [hc]; simp
      have hmin : ∀ y ∈ h.els.filter keep ++ part, c.ts ≤ y.ts := by
        intro y hy
        rw [hc] at hy htimed
        rcases List.mem_cons.mp hy with rfl | hy
        · exact le_rfl
        · exact (List.pairwise_cons.mp htimed).1 y hy
      conv_lhs => rw [← List.takeWhile_append_dropWhile (p := fun e => !keep e) (l := h.els), List.filter_append]
      rw [List.filter_eq_self.mpr, List.filter_eq_nil_iff.mpr, List.append_nil]
      · intro x hx
        cases hd : h.els.dropWhile (fun e => !keep e) with
        | nil => rw [hd] at hx; cases hx
        | cons d ds =>
          have hs : (d :: ds).Sublist h.els := hd ▸ List.dropWhile_sublist _
          have hkd : keep d = true := by
            have := List.head_dropWhile_not (fun e => !keep e) (l := h.els) (by rw [hd]; simp)
            simp only [hd, List.head_cons] at this
            simpa using this
          have h1 : c.ts ≤ d.ts := hmin d (by simp [hs.subset (List.mem_cons_self ..), hkd])
          rw [hd] at hx
          simp only [decide_eq_true_eq, not_lt]
          rcases List.mem_cons.mp hx with rfl | hx
          · exact h1
          · exact h1.trans ((List.pairwise_cons.mp (hels.sublist hs)).1 x hx).1.le
      · intro x hx
        have hx' : x ∈ h.els := (List.takeWhile_sublist _).subset hx
        rw [decide_eq_true_eq]
        rcases List.mem_append.mp hcm with hc' | hc'
        · obtain ⟨c1, c2⟩ := List.mem_filter.mp hc'
          exact (mem_takeWhile_before hels hx').mp hx c c1 c2
        · exact (hI2.2.2 x (hinv.sub.subset hx') c hc').1
    have hin : resolveIncoming h.els (h.els.filter keep ++ part) = part := by
      rcases List.eq_nil_or_concat h.els with h0 | ⟨l, last, hl⟩
      · rw [h0, incoming_nil]; rfl
      · have hlast : h.els.getLast? = some last := by rw [hl]; simp
        have hlm : last ∈ h.els := List.mem_of_getLast? hlast
        rw [incoming_timed htimed hlast, List.filter_append]
        have e1 : (h.els.filter keep).filter (fun v => decide (last.ts < v.ts)) = [] := by
          rw [List.filter_eq_nil_iff]
          intro x hx
          have hx := List.mem_of_mem_filter hx
          simp only [decide_eq_true_eq, not_lt]
          have hi := hels
          rw [hl, List.concat_eq_append] at hx hi
          rcases List.mem_append.mp hx with hx | hx
          · exact ((List.pairwise_append.mp hi).2.2 x hx last (by simp)).1.le
          · rw [List.mem_singleton.mp hx]
        have e2 : part.filter (fun v => decide (last.ts < v.ts)) = part := by
          rw [List.filter_eq_self]
          intro x hx
          exact decide_eq_true (hI2.2.2 last (hinv.sub.subset hlm) x hx).1
        rw [e1, e2]; rfl
    have hgone : ∀ o ∈ h.els.takeWhile (fun e => !keep e), o ∈ S := fun o ho =>
      hinv.sub.subset ((List.takeWhile_sublist _).subset ho)
    obtain ⟨m, hm, hmid⟩ := mapping_mid now render st.sampleset ht hcurI.ordered (Increasing.ordered hI2.2.1) (fun i hi => by simp [hi]) hk
      (fun h0 => absurd h0 hne) (out := h.els.takeWhile fun e => !keep e) (fun o ho => hlt o (hgone o ho))
    have hcar : Carries (grown k part) (h.next keep part) m := by
      refine hmid.congr (fun _ _ hp => hp) fun σ => ?_
      show liveSum (zeroed σ _) h.live + _ = liveSum σ (_ ++ _)
      rw [liveSum_append, liveSum_new, liveSum_zeroed σ (fun p hp => ⟨(hinv.seen p hp).1, (hinv.seen p hp).2.1⟩) hI2.1 hgone]
      congr 2
      have hz : ∀ e ∈ h.els.filter keep ++ part, zeroed σ (h.els.takeWhile fun e => !keep e) (lab e) = σ (lab e) := by
        intro e he
        unfold zeroed
        rw [if_neg]
        intro hc
        obtain ⟨o, ho, hl⟩ := List.mem_map.mp hc
        have ho' := (List.takeWhile_sublist _).subset ho
        have h1 := lab_inj hl
        rcases List.mem_append.mp he with he | he
        · obtain ⟨e1, e2⟩ := List.mem_filter.mp he
          have := increasing_eq hels.ordered ho' e1 h1
          subst this
          exact lt_irrefl _ ((mem_takeWhile_before hels e1).mp ho o e1 e2)
        · have := (hI2.2.2 o (hgone o ho) e he).2
          omega
      exact List.map_congr_left fun i hi => pairsOf_congr (hz i (by simp [hi])) hz
    obtain ⟨p, hp, hph, hcar'⟩ := hcar.physicOf env clks ids
    have hstep : ∃ o st1, (process (.«partial» fun x => .ok (keep x)) (fns now render env clks ids solver) initial w.1 w.2).run st = .ok o st1 ∧
        st1.ts = some w.2.ts ∧ st1.elements = some (h.next keep part).els ∧ st1.model = some m.cleaned ∧
        solveArgs st1.calls = solveArgs st.calls ++ [(m, (h.next keep part).els)] ∧
        o = [outputOf solver p (h.next keep part).els] := by
      rw [process_run, if_neg (not_lt.mpr ho1), hel, hcur]
      simp only [hout, hin]
      unfold afterMap
      simp only [fns]
      rw [hm]
      have hatt : ∀ st : St LModel (List (Sample × ℚ)) ℚ,
          (attenuationStage (.«partial» fun x => .ok (keep x)) m).run st = .ok m st := fun _ => rfl
      simp only [hatt]
      rw [solveStage_run]
      have hs : (solving env clks ids solver st.sampleset (h.els.filter keep ++ part) part (h.els.takeWhile fun e => !keep e)).run m =
          match solver p with
          | .ok s => .ok s m.cleaned
          | .error e => .error e m.cleaned := by
        unfold solving
        simp only [Py.run_bind, hp, Py.run_liftE]
        cases solver p <;> rfl
      simp only [hs]
      cases hsol : solver p with
      | error e =>
        refine ⟨_, _, rfl, rfl, rfl, rfl, ?_, ?_⟩
        · simp [solveArgs, List.filterMap_append]; rfl
        · simp [outputOf, hsol]
      | ok s =>
        refine ⟨_, _, rfl, rfl, rfl, rfl, ?_, ?_⟩
        · simp [solveArgs, List.filterMap_append]; rfl
        · unfold outputOf
          rw [hsol]
          have : unmapping s (h.els.filter keep ++ part) part (h.els.takeWhile fun e => !keep e) =
            unmapping s (h.next keep part).els [] [] := rfl
          simp only [this]
          cases unmapping s (h.next keep part).els [] [] <;> rfl
    obtain ⟨o, st1, hr, s1, s2, s3, s4, s5⟩ := hstep
    have hg : ∀ e ∈ S ++ part, e.idx < grown k part := by
      intro e he
      have hlast : grown k part = (part.getLast hne).idx + 1 := by
        unfold grown
        rw [List.getLast?_eq_some_getLast hne]
      rw [hlast]
      rcases List.mem_append.mp he with he | he
      · have := (hI2.2.2 e he _ (List.getLast_mem hne)).2
        omega
      · exact Nat.lt_succ_of_le (le_getLast (Increasing.ordered hI2.2.1) he)
    have hb' : ∀ x ∈ parts.flatten, grown k part ≤ x.idx := by
      intro x hx
      have hlast : grown k part = (part.getLast hne).idx + 1 := by
        unfold grown
        rw [List.getLast?_eq_some_getLast hne]
      rw [hlast]
      exact ((List.pairwise_append.mp hI).2.2 _ (by simp) x hx).2
    obtain ⟨os, st2, new, hr2, hc2, l1, l2, g1, g2⟩ := ih (st := st1) (k := grown k part) (h := h.next keep part) hI
      (by rw [s1]; exact ho2) (by rw [s2]; rfl) hinv' (by rw [s3]; exact hcar') hg hb'
    refine ⟨o :: os, st2, (m, (h.next keep part).els) :: new, ?_, ?_, by simp [l1], by simp [l2], ?_, ?_⟩
    · simp only [processAll, Py.run_bind, hr, hr2, Py.run_pure]
    · rw [hc2, s4]; simp
    · intro i o' ho'
      cases i with
      | zero => simp at ho'; subst ho'; exact ⟨p, hph, s5⟩
      | succ i => exact g1 i o' (by simpa using ho')
    · intro i c' hc'
      cases i with
      | zero => simp at hc'; subst hc'; exact ⟨rfl, fun ρ σ => hcar.energy ρ σ⟩
      | succ i => exact g2 i c' (by simpa using hc')

end Sawatabi.NppStream
