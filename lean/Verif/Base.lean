/-!
# Exceptions, effects and ordered dictionaries

Common ground for the model of `/repo/sawatabi`.
-/

namespace Sawatabi

/-- Python exception classes that the modelled code raises (or lets through). -/
inductive Err where
  | typeError | valueError | keyError | indexError | attributeError | assertionError
  | zeroDivisionError | unboundLocalError
  /-- pyqubo's exception for a placeholder missing from `feed_dict` -/
  | placeholderError
  /-- an exception raised by a user-supplied function -/
  | userError
  deriving DecidableEq, Repr

/-- Outcome of a call: a value and the new state, or an exception and the state at the raise. -/
inductive Res (σ α : Type) where
  | ok (a : α) (s : σ)
  | error (e : Err) (s : σ)
  deriving DecidableEq, Repr

/-- State in which a call leaves the object, whether it returned or raised. -/
def Res.state {σ α : Type} : Res σ α → σ
  | .ok _ s => s
  | .error _ s => s

/-- Did the call return? -/
def Res.isOk {σ α : Type} : Res σ α → Bool
  | .ok _ _ => true
  | .error _ _ => false

/-- A Python method on an object with state `σ`: on an exception the state at the raise is kept. -/
structure Py (σ α : Type) where
  run : σ → Res σ α

instance {σ : Type} : Monad (Py σ) where
  pure a := ⟨fun s => .ok a s⟩
  bind x f := ⟨fun s => match x.run s with
    | .ok a s' => (f a).run s'
    | .error e s' => .error e s'⟩

instance {σ : Type} : MonadStateOf σ (Py σ) where
  get := ⟨fun s => .ok s s⟩
  set t := ⟨fun _ => .ok ⟨⟩ t⟩
  modifyGet f := ⟨fun s => .ok (f s).1 (f s).2⟩

instance {σ : Type} : MonadExceptOf Err (Py σ) where
  throw e := ⟨fun s => .error e s⟩
  tryCatch x h := ⟨fun s => match x.run s with
    | .ok a s' => .ok a s'
    | .error e s' => (h e).run s'⟩

/-- Lift a state-free computation that may raise. -/
def liftE {σ α : Type} (x : Except Err α) : Py σ α :=
  match x with
  | .ok a => pure a
  | .error e => throw e

/-! ## Python dictionaries (insertion ordered) -/

/-- `d[k] = v`: overwrite in place, or append. -/
def dset {κ ν : Type} [DecidableEq κ] : List (κ × ν) → κ → ν → List (κ × ν)
  | [], k, v => [(k, v)]
  | (k', v') :: d, k, v => if k' = k then (k', v) :: d else (k', v') :: dset d k v

/-- `d.get(k)` -/
def dget {κ ν : Type} [DecidableEq κ] : List (κ × ν) → κ → Option ν
  | [], _ => none
  | (k', v') :: d, k => if k' = k then some v' else dget d k

/-- `d.pop(k)` for a present key (absent key: unchanged, callers check first). -/
def dpop {κ ν : Type} [DecidableEq κ] : List (κ × ν) → κ → List (κ × ν)
  | [], _ => []
  | (k', v') :: d, k => if k' = k then d else (k', v') :: dpop d k

/-- `d.keys()` -/
def dkeys {κ ν : Type} (d : List (κ × ν)) : List κ := d.map (·.1)

/-- `d.update(e)` -/
def dupdate {κ ν : Type} [DecidableEq κ] (d e : List (κ × ν)) : List (κ × ν) :=
  e.foldl (fun acc p => dset acc p.1 p.2) d

/-- `s.add(k)` for a set (or a dictionary used as a set) kept in insertion order. -/
def sadd {κ : Type} [DecidableEq κ] (s : List κ) (k : κ) : List κ :=
  if k ∈ s then s else s ++ [k]

end Sawatabi
