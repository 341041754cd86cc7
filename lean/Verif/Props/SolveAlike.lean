import Verif.Lemmas.SolveAlike
import Verif.Props.EndToEnd

/-!
# C116: equal physical models are solved alike

The annealing gets the numbers of the variables from the physical model, and the energies from its dictionaries. Two
physical models with `==` may have their dictionaries in different orders. With the same random numbers the annealing
goes through the same states nevertheless.

Numbers are exact here; with floating point numbers sums in another order can be rounded differently.
-/

namespace Sawatabi.Props

variable {p q : Physical} {γ : Type} {rng : Rng γ} {exp : ℚ → Except Err ℚ} {o : Options} {s : Problem}
  {seeded : Nat → γ} {fresh : γ} {numReads : Int} {seed : Option Int}

theorem alike_uses (h : p.Alike q) (v : String) : p.Uses v ↔ q.Uses v := by
  have hk : ∀ {κ ν : Type} {d e : List (κ × ν)}, d.Perm e → ∀ k, k ∈ dkeys d ↔ k ∈ dkeys e :=
    fun h k => (h.map Prod.fst).mem_iff
  unfold Physical.Uses
  rw [hk h.linear]
  refine or_congr Iff.rfl ?_
  constructor
  · rintro ⟨k, h1, h2⟩; exact ⟨k, (hk h.quad k).mp h1, h2⟩
  · rintro ⟨k, h1, h2⟩; exact ⟨k, (hk h.quad k).mpr h1, h2⟩

theorem alike_symm (h : p.Alike q) : q.Alike p :=
  ⟨h.mtype.symm, h.linear.symm, h.quad.symm, h.offset.symm, h.l2i.symm, h.i2l.symm⟩

/-- If the preparation succeeds for one of two equal models, it succeeds for the other, and the labels are the same. -/
theorem alike_ready (hp : p.FromCalls) (hq : q.FromCalls) (h : p.Alike q) (hs : prepare p = .ok s) :
    p.Ready p.labels ∧ q.Ready p.labels := by
  have hr := fromCalls_ready hp hs
  have hlen : (p.toBqm 1).variables.length = p.labels.length := Bqm.On.length (hr.on 1) hr.nodup
  have hlen' : (q.toBqm 1).variables.length = p.labels.length := by
    rw [← hlen]; exact (h.bqm 1).variables.length_eq.symm
  obtain ⟨t, ht⟩ := prepare_total (p := q) (fun v hv => by
    have hv' := (hr.mem v).mpr ((alike_uses h v).mpr hv)
    refine ⟨p.labels.idxOf v, ?_, by rw [hlen']; exact List.idxOf_lt_length_of_mem hv'⟩
    rw [← dget_perm h.l2i (fromCalls_numbering hp).1]
    have := hr.index_mem hv'
    unfold Physical.index at this
    split at this <;> cases this
    assumption)
  have hr' := fromCalls_ready hq ht
  refine ⟨hr, ?_⟩
  have hi := h.i2l
  rw [hr.indexToLabel, hr'.indexToLabel] at hi
  have hlen : p.labels.length = q.labels.length := by simpa using hi.length_eq
  have : p.labels = q.labels := by
    apply List.ext_getElem?
    intro i
    by_cases hi' : i < p.labels.length
    · have hm : (i, p.labels[i]) ∈ p.labels.zipIdx.map Prod.swap :=
        List.mem_map.mpr ⟨(p.labels[i], i), List.mem_zipIdx_iff_getElem?.mpr (List.getElem?_eq_getElem hi'), rfl⟩
      rw [hi.mem_iff] at hm
      obtain ⟨⟨a, b⟩, h1, h2⟩ := List.mem_map.mp hm
      have e1 : b = i := congrArg Prod.fst h2
      have e2 : a = p.labels[i] := congrArg Prod.snd h2
      have := List.mem_zipIdx_iff_getElem?.mp h1
      rw [List.getElem?_eq_getElem hi', ← e2, ← e1]
      exact this.symm
    · rw [List.getElem?_eq_none (by omega), List.getElem?_eq_none (by omega)]
  rw [this]
  exact hr'

/-- What `solve` does for two models that are the same up to the order of dictionaries: either the same in every respect
(the same samples, energies and histories, or the same exception, and the same initial states afterwards), or the
preparation fails for both models. -/
theorem alike_cases (hp : p.FromCalls) (hq : q.FromCalls) (h : p.Alike q) :
    (∀ init, (solve rng seeded fresh exp p numReads o seed).run init = (solve rng seeded fresh exp q numReads o seed).run init) ∨
      (∃ e, prepare p = .error e) ∧ ∃ e, prepare q = .error e := by
  cases hs : prepare p with
  | ok s =>
    obtain ⟨h1, h2⟩ := alike_ready hp hq h hs
    exact .inl fun init => solve_alike h1 h2 h init
  | error e =>
    refine .inr ⟨⟨e, rfl⟩, ?_⟩
    cases ht : prepare q with
    | ok t =>
      obtain ⟨h1, h2⟩ := alike_ready hq hp (alike_symm h) ht
      rw [(prepare_ok h2).choose_spec.1] at hs
      cases hs
    | error e => exact ⟨e, rfl⟩

/-- The same interactions as in the QUBO example, added in another order. -/
def Ex.otherOps : List Op := [.variables "x" [3], .add 12 (.var Ex.b2) (.str "") (.num (-4)) (.num 1) .none .none,
  .add 11 (.tuple [some Ex.b0, some Ex.b1]) (.str "") (.expr (.ph "p")) (.num 1) .none .none,
  .add 10 (.var Ex.b0) (.str "") (.num 3) (.num 2) .none .none, .setOffset (.num 9)]

def Ex.other : LModel := Ex.otherOps.foldl (Op.step ⟨0, fun _ => ""⟩) (LModel.new .qubo "203")

def Ex.physOther : Physical :=
  match (toPhysical ⟨0, fun _ => ""⟩ (fun _ _ => 0) (fun _ => "1") [("p", 2)]).run Ex.other with
  | .ok p _ => p
  | .error _ _ => Ex.physQubo

theorem Ex.other_made : Made ⟨0, fun _ => ""⟩ AnyCall Ex.other :=
  made_ops _ (.new _ _) (by simp [Ex.otherOps]) fun _ _ _ => trivial

/-- The hypotheses of the theorems below hold for the examples; their dictionaries are in different orders. -/
example : Ex.physOther.FromCalls ∧ Ex.physQubo.FromCalls ∧ Ex.physOther.eq Ex.physQubo = true ∧
    Ex.physOther.linear ≠ Ex.physQubo.linear ∧ (prepare Ex.physOther).isOk = true :=
  ⟨⟨_, fun _ _ => 0, fun _ => "1", [("p", 2)], Ex.other, _, Ex.other_made, by simp, rfl⟩,
    ⟨_, fun _ _ => 0, fun _ => "1", [("p", 2)], Ex.qubo, _, Ex.qubo_made, by simp, rfl⟩, by decide +kernel, by decide +kernel,
    by decide +kernel⟩

example : (Ex.other.rows.map Row.core).Perm (Ex.qubo.rows.map Row.core) ∧ Ex.other.rows.map Row.core ≠ Ex.qubo.rows.map Row.core ∧
    Ex.other.constraints = Ex.qubo.constraints ∧ Ex.other.offset = Ex.qubo.offset ∧ Ex.other.mtype = Ex.qubo.mtype ∧
    Ex.other.vars = Ex.qubo.vars ∧ Ex.other.deleted = Ex.qubo.deleted := by
  refine ⟨?_, ?_, ?_, ?_, ?_, ?_, ?_⟩ <;> decide +kernel

/-- Equal physical models are solved alike: if `solve` returns for one, it returns the same for the other. -/
theorem C116_equal (hp : p.FromCalls) (hq : q.FromCalls) (h : p.eq q = true) {init init' : Option (List Sample)}
    {l : List Annealed} : (solve rng seeded fresh exp p numReads o seed).run init = .ok l init' ↔
      (solve rng seeded fresh exp q numReads o seed).run init = .ok l init' := by
  rcases alike_cases (rng := rng) (exp := exp) (o := o) (seeded := seeded) (fresh := fresh) (numReads := numReads) (seed := seed)
    hp hq ((C87_physical_eq_iff hp hq).mp h) with h | ⟨⟨e, h1⟩, e', h2⟩
  · rw [h init]
  · constructor <;> intro h
    · obtain ⟨_, _, g, s, rs, _, hs, _⟩ := solve_ok h
      rw [h1] at hs; cases hs
    · obtain ⟨_, _, g, s, rs, _, hs, _⟩ := solve_ok h
      rw [h2] at hs; cases hs

/-- Also the exceptions are the same, unless the model cannot be prepared at all. -/
theorem C116_raises (hp : p.FromCalls) (hq : q.FromCalls) (h : p.eq q = true) (hs : prepare p = .ok s)
    (init : Option (List Sample)) :
    (solve rng seeded fresh exp p numReads o seed).run init = (solve rng seeded fresh exp q numReads o seed).run init := by
  obtain ⟨h1, h2⟩ := alike_ready hp hq ((C87_physical_eq_iff hp hq).mp h) hs
  exact solve_alike h1 h2 ((C87_physical_eq_iff hp hq).mp h) init

/-- The order in which the interactions were added makes no difference: two logical models, made by any calls, with the
same interactions in different orders (and any names, timestamps and attributes) are annealed alike. -/
theorem C116_order {env env' : Env} {clks clks' : Nat → Nat → ℚ} {ids ids' : Nat → String} {ph : List (String × ℚ)}
    {m n m' n' : LModel} (hm : Made env KnownKeys m) (hn : Made env' KnownKeys n) (hph : (ph.map (·.1)).Nodup)
    (hperm : (m.rows.map Row.core).Perm (n.rows.map Row.core)) (hcons : m.constraints = n.constraints)
    (hoff : m.offset = n.offset) (ht : m.mtype = n.mtype) (hv : m.vars = n.vars) (hd : m.deleted = n.deleted)
    (h : (toPhysical env clks ids ph).run m = .ok p m') (h' : (toPhysical env' clks' ids' ph).run n = .ok q n')
    {init init' : Option (List Sample)} {l : List Annealed} :
    (solve rng seeded fresh exp p numReads o seed).run init = .ok l init' ↔
      (solve rng seeded fresh exp q numReads o seed).run init = .ok l init' := by
  obtain ⟨h1, h2, h3, h4, h5, h6, _⟩ := C27_order_partial (made_rect (fun _ _ h => h) hm) (made_rect (fun _ _ h => h) hn)
    (made_ordered hm) hph hperm hcons hoff ht hv hd h h'
  have hp : p.FromCalls := ⟨env, clks, ids, ph, m, m', made_mono (fun _ _ _ => trivial) hm, hph, h⟩
  have hq : q.FromCalls := ⟨env', clks', ids', ph, n, n', made_mono (fun _ _ _ => trivial) hn, hph, h'⟩
  exact C116_equal hp hq ((C87_physical_eq_iff hp hq).mpr ⟨h4, h1, h2, h3, .of_eq h5, .of_eq h6⟩)

end Sawatabi.Props
