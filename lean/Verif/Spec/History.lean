import Verif.Model.Convert

/-!
# Histories of public `LogicalModel` calls
-/

namespace Sawatabi

/-- A public call on a `LogicalModel`, with everything it reads from outside (clocks, object ids). The
getters and `select_interaction` do not change the modelled state and are left out, except
`select_interactions_by_variable`, which may raise. -/
inductive Op where
  | variables (name : String) (shape : List Int)
  | variablesArray (a : VArray)
  | append (name : String) (shape : List Int)
  | add (now : ℚ) (target : PyTarget) (name : PyName) (c s : PyCoef) (attributes : PyAttrs) (ts : PyTs)
  | update (now : ℚ) (target : PyTarget) (name : PyName) (c s : Option PyCoef) (attributes : PyAttrs)
      (ts : Option PyTs)
  | remove (target : PyTarget) (name : PyName)
  | select (v : PVar)
  | delete (v : PVar)
  | fix (clk : Nat → ℚ) (v : PVar) (value : PyNum)
  | addConstraint (c : Constraint)
  | removeConstraint (label : String)
  | setOffset (c : Coef)
  | fromPyqubo (now : ℚ) (pm : PModel)
  | toIsing (clk : Nat → ℚ)
  | toQubo (clk : Nat → ℚ)
  | merge (clk : Nat → ℚ) (other : LModel)
  | toPhysical (clks : Nat → Nat → ℚ) (ids : Nat → String) (ph : List (String × ℚ))

/-- A method of the first object of a pair, on that object. -/
def withSnd {σ τ : Type} (t : τ) (x : Py (σ × τ) Unit) : Py σ Unit := ⟨fun s =>
  match x.run (s, t) with
  | .ok _ p => .ok () p.1
  | .error e p => .error e p.1⟩

/-- The call. -/
def Op.call (env : Env) : Op → Py LModel Unit
  | .variables name shape => do let _ ← createVars name shape
  | .variablesArray a => do let _ ← Sawatabi.variablesArray a
  | .append name shape => do let _ ← appendVars name shape
  | .add now target name c s attributes ts => addInteraction now target name c s attributes ts
  | .update now target name c s attributes ts =>
    updateInteraction env.importTime now target name c s attributes ts
  | .remove target name => removeInteraction target name
  | .select v => do let _ ← selectByVariable v
  | .delete v => deleteVariable v
  | .fix clk v value => fixVariable clk v value
  | .addConstraint c => Sawatabi.addConstraint c
  | .removeConstraint l => Sawatabi.removeConstraint l
  | .setOffset c => Sawatabi.setOffset c
  | .fromPyqubo now pm => withSnd pm (Sawatabi.fromPyqubo now)
  | .toIsing clk => Sawatabi.toIsing env clk
  | .toQubo clk => Sawatabi.toQubo env clk
  | .merge clk other => withSnd other (Sawatabi.merge env clk)
  | .toPhysical clks ids ph => do let _ ← Sawatabi.toPhysical env clks ids ph

/-- The model after a call, whether it returned or raised. -/
def Op.step (env : Env) (m : LModel) (op : Op) : LModel := ((op.call env).run m).state

/-- States along a history in which each call satisfies `P` (a condition on the state before the
call and the call). -/
inductive Reach (env : Env) (P : LModel → Op → Prop) (m₀ : LModel) : LModel → Prop
  | start : Reach env P m₀ m₀
  | step (m : LModel) (op : Op) (h : Reach env P m₀ m) (hp : P m op) : Reach env P m₀ (op.step env m)

/-- Models that come out of `LogicalModel(...)` and public calls satisfying `P`; a model that is merged into another one
comes out of such calls itself. -/
inductive Made (env : Env) (P : LModel → Op → Prop) : LModel → Prop
  | new (mt : MType) (id : String) : Made env P (LModel.new mt id)
  | step (m : LModel) (op : Op) (h : Made env P m) (hp : P m op) (ho : ∀ clk o, op = .merge clk o → Made env P o) :
    Made env P (op.step env m)

/-- Any call. -/
def AnyCall (_ : LModel) (_ : Op) : Prop := True

/-- Calls in which updates name only attribute keys that were introduced by an add. -/
def KnownKeys (m : LModel) : Op → Prop
  | .update _ _ _ _ _ attributes _ => ∀ kv ∈ attributes.entries, "attributes." ++ kv.1 ∈ m.attrs
  | _ => True

/-- Physical models that `to_physical` returns for models made by public calls. A dictionary of placeholders has distinct
keys. -/
def Physical.FromCalls (p : Physical) : Prop := ∃ env clks ids ph m m', Made env AnyCall m ∧
  (ph.map (·.1)).Nodup ∧ (toPhysical env clks ids ph).run m = .ok p m'

/-- The labels of a physical model by index. -/
def Physical.labels (p : Physical) : List String := p.indexToLabel.map (·.2)

end Sawatabi
