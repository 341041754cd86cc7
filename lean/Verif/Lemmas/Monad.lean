import Verif.Base

/-!
# Reasoning about the state-and-exception monad
-/

namespace Sawatabi

variable {σ τ α β : Type}

theorem Py.run_bind (x : Py σ α) (f : α → Py σ β) (s : σ) :
    (x >>= f).run s = match x.run s with
      | .ok a s' => (f a).run s'
      | .error e s' => .error e s' := rfl

theorem Py.run_pure (a : α) (s : σ) : (pure a : Py σ α).run s = .ok a s := rfl
theorem Py.run_throw (e : Err) (s : σ) : (throw e : Py σ α).run s = .error e s := rfl
theorem Py.run_get (s : σ) : (get : Py σ σ).run s = .ok s s := rfl
theorem Py.run_set (t s : σ) : (set t : Py σ PUnit).run s = .ok ⟨⟩ t := rfl
theorem Py.run_modify (f : σ → σ) (s : σ) : (modify f : Py σ PUnit).run s = .ok ⟨⟩ (f s) := rfl
theorem Py.run_map (f : α → β) (x : Py σ α) (s : σ) :
    (f <$> x).run s = match x.run s with
      | .ok a s' => .ok (f a) s'
      | .error e s' => .error e s' := rfl
theorem Py.run_liftE_ok (a : α) (s : σ) : (liftE (.ok a) : Py σ α).run s = .ok a s := rfl
theorem Py.run_liftE_error (e : Err) (s : σ) : (liftE (.error e) : Py σ α).run s = .error e s := rfl
theorem Py.run_liftE (x : Except Err α) (s : σ) :
    (liftE x : Py σ α).run s = match x with
      | .ok a => .ok a s
      | .error e => .error e s := by cases x <;> rfl

theorem Py.run_ite (c : Prop) [Decidable c] (x y : Py σ α) (s : σ) :
    (if c then x else y).run s = if c then x.run s else y.run s := by split <;> rfl

/-- simp set that runs a straight-line `Py` program on a state -/
macro "py_simp" : tactic =>
  `(tactic| simp only [Py.run_bind, Py.run_pure, Py.run_throw, Py.run_get, Py.run_set,
      Py.run_modify, Py.run_map, Py.run_liftE_ok, Py.run_liftE_error, Py.run_ite])

/-- simp set that runs a straight-line `Py` program on a state, at a hypothesis -/
macro "py_simp" "at" h:ident : tactic =>
  `(tactic| simp only [Py.run_bind, Py.run_pure, Py.run_throw, Py.run_get, Py.run_set,
      Py.run_modify, Py.run_map, Py.run_liftE_ok, Py.run_liftE_error, Py.run_ite] at $h:ident)

theorem Py.bind_ok_iff {x : Py σ α} {f : α → Py σ β} {s s' : σ} {b : β} :
    (x >>= f).run s = .ok b s' ↔ ∃ a t, x.run s = .ok a t ∧ (f a).run t = .ok b s' := by
  rw [Py.run_bind]
  cases h : x.run s with
  | ok a t =>
    constructor
    · intro hf; exact ⟨a, t, rfl, hf⟩
    · rintro ⟨a', t', e, hf⟩; cases e; exact hf
  | error e t =>
    constructor
    · intro hf; cases hf
    · rintro ⟨a', t', e, hf⟩; cases e

theorem Py.run_forM_nil (f : α → Py σ PUnit) (s : σ) :
    (([] : List α).forM f).run s = .ok ⟨⟩ s := rfl

theorem Py.run_forM_cons (f : α → Py σ PUnit) (a : α) (l : List α) (s : σ) :
    ((a :: l).forM f).run s = match (f a).run s with
      | .ok _ s' => (l.forM f).run s'
      | .error e s' => .error e s' := by
  rw [List.forM_eq_forM, List.forM_cons, Py.run_bind]
  cases (f a).run s <;> rfl

/-- A reflexive, transitive relation respected by each round is respected by the loop, whether it
ends normally or not. -/
theorem Py.forM_rel {R : σ → σ → Prop} (refl : ∀ s, R s s) (trans : ∀ a b c, R a b → R b c → R a c)
    (f : α → Py σ PUnit) (l : List α) (h : ∀ x ∈ l, ∀ s, R s (((f x).run s).state)) (s : σ) :
    R s ((l.forM f).run s).state := by
  induction l generalizing s with
  | nil => exact refl s
  | cons x l ih =>
    rw [Py.run_forM_cons]
    have hx := h x (by simp) s
    cases hf : (f x).run s with
    | ok u t =>
      rw [hf] at hx
      exact trans _ _ _ hx (ih (fun y hy => h y (by simp [hy])) t)
    | error e t => rw [hf] at hx; exact hx

/-- Invariant of a loop. -/
theorem Py.forM_inv {I : σ → Prop} (f : α → Py σ PUnit) (l : List α)
    (h : ∀ x ∈ l, ∀ s, I s → I (((f x).run s).state)) (s : σ) (hs : I s) :
    I ((l.forM f).run s).state := by
  induction l generalizing s with
  | nil => exact hs
  | cons x l ih =>
    rw [Py.run_forM_cons]
    have hx := h x (by simp) s hs
    cases hf : (f x).run s with
    | ok u t => rw [hf] at hx; exact ih (fun y hy => h y (by simp [hy])) t hx
    | error e t => rw [hf] at hx; exact hx

/-- A loop whose rounds succeed as long as the invariant holds succeeds and keeps the invariant. -/
theorem Py.forM_ok {I : σ → Prop} (f : α → Py σ PUnit) (l : List α)
    (h : ∀ x ∈ l, ∀ s, I s → ∃ t, (f x).run s = .ok ⟨⟩ t ∧ I t) (s : σ) (hs : I s) :
    ∃ t, (l.forM f).run s = .ok ⟨⟩ t ∧ I t := by
  induction l generalizing s with
  | nil => exact ⟨s, rfl, hs⟩
  | cons x l ih =>
    obtain ⟨t, ht, hI⟩ := h x (by simp) s hs
    rw [Py.run_forM_cons, ht]
    exact ih (fun y hy => h y (by simp [hy])) t hI

/-- A loop whose rounds are total functions is a fold. -/
theorem Py.forM_fold (f : α → Py σ PUnit) (g : σ → α → σ) (l : List α)
    (h : ∀ x ∈ l, ∀ s, (f x).run s = .ok ⟨⟩ (g s x)) (s : σ) : (l.forM f).run s = .ok ⟨⟩ (l.foldl g s) := by
  induction l generalizing s with
  | nil => rfl
  | cons x l ih =>
    rw [Py.run_forM_cons, h x (by simp) s]
    exact ih (fun y hy => h y (by simp [hy])) _

/-- A property of all successful rounds, transported through a successful loop. -/
theorem Py.forM_ok_inv {I : σ → Prop} (f : α → Py σ PUnit) (l : List α)
    (h : ∀ x ∈ l, ∀ s t, I s → (f x).run s = .ok ⟨⟩ t → I t) {s t : σ} (hs : I s)
    (ht : (l.forM f).run s = .ok ⟨⟩ t) : I t := by
  induction l generalizing s with
  | nil => cases ht; exact hs
  | cons x l ih =>
    rw [Py.run_forM_cons] at ht
    cases hf : (f x).run s with
    | ok u s' =>
      rw [hf] at ht
      exact ih (fun y hy => h y (by simp [hy])) (h x (by simp) s s' hs hf) ht
    | error e s' => rw [hf] at ht; cases ht

end Sawatabi
