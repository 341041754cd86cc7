import Verif.Lemmas.Constraint
import Verif.Model.Options
import Verif.Props.StreamExact
import Verif.Props.Attenuation

/-!
# C128: the options of the pipelines

When a pipeline is created, with which windows and type of model, and what the options that are not read then do later.
-/

namespace Sawatabi.Props

open Stream Pipeline

section
variable {S δ β : Type} {k : Kind} {o o' : AlgOptions δ} {t : TypeArg} {wi : Windowing} {mt : MType} {f : Fns LModel S δ β}
  {initial : LModel} {env : Env} {clks : Nat → Nat → ℚ} {ids : Nat → String}

/-- The windows that the options ask for. -/
def AsksFor (k : Kind) (o : AlgOptions δ) (wi : Windowing) : Prop :=
  ((k = .window ∨ k = .«partial» ∨ k = .attenuation) ∧
    ∃ size period, o.windowSize = some size ∧ o.windowPeriod = some period ∧ 0 < size ∧ wi = .sliding size period) ∨
  (k = .delta ∧ ∃ size, o.windowSize = some size ∧ 0 < size ∧ wi = .fixed size) ∨
  (k = .incremental ∧ ∃ size, o.incrementalSize = some size ∧ 0 < size ∧ wi = .fixed size)

/-- An option for the windows is missing. -/
def SizeMissing (k : Kind) (o : AlgOptions δ) : Prop :=
  ((k = .window ∨ k = .«partial» ∨ k = .attenuation) ∧ (o.windowSize = none ∨ o.windowPeriod = none)) ∨
  (k = .delta ∧ o.windowSize = none) ∨ (k = .incremental ∧ o.incrementalSize = none)

theorem option_bind {α γ : Type} {x : Option α} {g : α → Except Err γ} :
    (option x >>= g) = (match x with | none => .error .keyError | some a => g a) := by
  cases x <;> rfl

theorem windowInto_cases (k : Kind) (o : AlgOptions δ) :
    (∃ wi, windowInto k o = .ok wi ∧ AsksFor k o wi ∧ ¬ SizeMissing k o) ∨
    (windowInto k o = .error .keyError ∧ SizeMissing k o ∧ ∀ wi, ¬ AsksFor k o wi) ∨
    (windowInto k o = .error .valueError ∧ ¬ SizeMissing k o ∧ ∀ wi, ¬ AsksFor k o wi) := by
  rcases o with ⟨s, p, i, _, _, _⟩
  rcases k with _ | _ | _ | _ | _ <;>
    simp only [windowInto, AsksFor, SizeMissing, reduceCtorEq, false_and, or_false, false_or, true_or, or_true, true_and,
      option_bind] <;>
    rcases s with _ | s <;> rcases p with _ | p <;> rcases i with _ | i <;>
    first
    | simp; done
    | (simp only [slidingWindows, fixedWindows]
       first
       | (by_cases h : s ≤ 0
          · have h' : ¬ 0 < s := not_lt.mpr h
            simp [h, h']
          · have h' : 0 < s := not_le.mp h
            simp [h, h']
          done)
       | (by_cases h : i ≤ 0
          · have h' : ¬ 0 < i := not_lt.mpr h
            simp [h, h']
          · have h' : 0 < i := not_le.mp h
            simp [h, h']
          done))

theorem checkInitialType_cases (t : TypeArg) :
    (t = .other ∧ checkInitialType t = .error .typeError) ∨ (t = .str "ising" ∧ checkInitialType t = .ok .ising) ∨
    (t = .str "qubo" ∧ checkInitialType t = .ok .qubo) ∨
    ((∃ s, t = .str s ∧ s ≠ "ising" ∧ s ≠ "qubo") ∧ checkInitialType t = .error .valueError) := by
  rcases t with s | _
  · by_cases h1 : s = "ising"
    · subst h1; right; left; exact ⟨rfl, by simp [checkInitialType]⟩
    · by_cases h2 : s = "qubo"
      · subst h2; right; right; left; exact ⟨rfl, by simp [checkInitialType]⟩
      · right; right; right; exact ⟨⟨s, rfl, h1, h2⟩, by simp [checkInitialType, h1, h2]⟩
  · left; exact ⟨rfl, rfl⟩

/-- **C128** A pipeline is created exactly if the options ask for windows and the type is the name of one; it has these windows,
and its first model is of this type. -/
theorem C128_created_iff : createPipeline k o t = .ok (wi, mt) ↔
    AsksFor k o wi ∧ ((t = .str "ising" ∧ mt = .ising) ∨ (t = .str "qubo" ∧ mt = .qubo)) := by
  unfold createPipeline
  rcases windowInto_cases k o with ⟨w, h1, h2, _⟩ | ⟨h1, _, h3⟩ | ⟨h1, _, h3⟩
  · have hu : ∀ w', AsksFor k o w' → w' = w := fun w' h => by
      unfold AsksFor at h h2
      rcases h with ⟨h, a, b, h4, h5, h6, rfl⟩ | ⟨h, a, h4, h5, rfl⟩ | ⟨h, a, h4, h5, rfl⟩ <;>
      rcases h2 with ⟨g, c, d, g4, g5, g6, rfl⟩ | ⟨g, c, g4, g5, rfl⟩ | ⟨g, c, g4, g5, rfl⟩ <;> simp_all
    rw [h1]
    rcases checkInitialType_cases t with ⟨rfl, h⟩ | ⟨rfl, h⟩ | ⟨rfl, h⟩ | ⟨⟨s, rfl, hs, hs'⟩, h⟩ <;>
      simp only [bind, Except.bind, h, pure, Except.pure, Except.ok.injEq, Prod.mk.injEq, reduceCtorEq, TypeArg.str.injEq, false_iff, not_and]
    · simp
    · exact ⟨fun ⟨e1, e2⟩ => ⟨e1 ▸ h2, .inl ⟨trivial, e2.symm⟩⟩, fun ⟨e1, e2⟩ => ⟨(hu _ e1).symm, by simpa [eq_comm] using e2⟩⟩
    · exact ⟨fun ⟨e1, e2⟩ => ⟨e1 ▸ h2, .inr ⟨trivial, e2.symm⟩⟩, fun ⟨e1, e2⟩ => ⟨(hu _ e1).symm, by simpa [eq_comm] using e2⟩⟩
    · simp [hs, hs']
  · rw [h1]; simp [bind, Except.bind, h3]
  · rw [h1]; simp [bind, Except.bind, h3]

/-- **C128** Which exception is raised otherwise: KeyError for missing options first, then ValueError for sizes, TypeError for a type
that is no string, ValueError for other strings. -/
theorem C128_raises : 
    (createPipeline k o t = .error .keyError ↔ SizeMissing k o) ∧
    (createPipeline k o t = .error .typeError ↔ (∃ wi, AsksFor k o wi) ∧ t = .other) ∧
    (createPipeline k o t = .error .valueError ↔ ¬ SizeMissing k o ∧
      ((¬ ∃ wi, AsksFor k o wi) ∨ ∃ s, t = .str s ∧ s ≠ "ising" ∧ s ≠ "qubo")) := by
  unfold createPipeline
  rcases windowInto_cases k o with ⟨w, h1, h2, h3⟩ | ⟨h1, h2, h3⟩ | ⟨h1, h2, h3⟩
  · have hw : ∃ wi, AsksFor k o wi := ⟨w, h2⟩
    rw [h1]
    rcases checkInitialType_cases t with ⟨rfl, h⟩ | ⟨rfl, h⟩ | ⟨rfl, h⟩ | ⟨⟨s, rfl, hs, hs'⟩, h⟩ <;>
      simp only [bind, Except.bind, h, pure, Except.pure] <;> simp_all
  · rw [h1]; simp [bind, Except.bind, h2, h3]
  · rw [h1]; simp [bind, Except.bind, h2, h3]

example : createPipeline (δ := ℚ) .window { windowSize := some 30, windowPeriod := some 5 } (.str "qubo") = .ok (.sliding 30 5, .qubo) ∧
    createPipeline (δ := ℚ) .incremental { windowSize := some 30 } (.str "qubo") = .error .keyError ∧
    createPipeline (δ := ℚ) .delta { windowSize := some 0 } .other = .error .valueError ∧
    createPipeline (δ := ℚ) .delta { windowSize := some 1 } (.str "Ising") = .error .valueError := by
  refine ⟨?_, ?_, ?_, ?_⟩ <;> decide +kernel

/-! ## The other options -/

/-- The algorithm that the options describe. -/
inductive DescribesAlg (env : Env) (clks : Nat → Nat → ℚ) (ids : Nat → String) (o : AlgOptions δ) : Kind → Algorithm LModel δ → Prop
  | window : DescribesAlg env clks ids o .window .window
  | delta : DescribesAlg env clks ids o .delta .delta
  | incremental : DescribesAlg env clks ids o .incremental .incremental
  | «partial» {g} : o.filterFn = some g → DescribesAlg env clks ids o .«partial» (.«partial» g)
  | attenuation {key ms} : o.attenuationKey = some key → o.minScale = some ms →
      DescribesAlg env clks ids o .attenuation (.attenuation (attenuate env clks ids key ms))

theorem attenuateWith_eq (key : String) (ms : ℚ) : attenuateWith env clks ids (some key) (some ms) = attenuate env clks ids key ms := by
  unfold attenuateWith attenuate
  refine Py.ext_run fun s => ?_
  py_simp
  cases (toPhysical env clks ids []).run s <;> rfl

/-- **C128** With its options an algorithm is the one of the other theorems. -/
theorem C128_complete {alg : Algorithm LModel δ} (h : DescribesAlg env clks ids o k alg) (shared : Bool) (w : Win δ) :
    processWith env clks ids k o f initial shared w = process alg f initial shared w := by
  cases h with
  | window => rfl
  | delta => rfl
  | incremental => rfl
  | «partial» h => unfold processWith; rw [h]
  | attenuation h1 h2 => unfold processWith; rw [h1, h2]; simp only [attenuateWith_eq]

/-- Options of other algorithms change nothing. -/
theorem C128_frame (h1 : k ≠ .incremental → o.windowSize = o'.windowSize)
    (h2 : k ≠ .incremental → k ≠ .delta → o.windowPeriod = o'.windowPeriod) (h3 : k = .incremental → o.incrementalSize = o'.incrementalSize)
    (h4 : k = .«partial» → o.filterFn = o'.filterFn) (h5 : k = .attenuation → o.attenuationKey = o'.attenuationKey ∧ o.minScale = o'.minScale) :
    createPipeline k o t = createPipeline k o' t ∧ ∀ shared w,
      processWith env clks ids k o f initial shared w = processWith env clks ids k o' f initial shared w := by
  cases k <;> simp_all [createPipeline, windowInto, processWith]

/-- The pipeline with the partial algorithm is created without `filter_fn`, but then no window gets through: KeyError escapes, before
any function is called, and the state stays. -/
theorem C128_filter_refuted (hf : o.filterFn = none) {st : St LModel S δ} {shared : Bool} {w : Win δ} (hw : st.ts.getD (-1) ≤ w.ts) :
    (processWith env clks ids .«partial» o f initial shared w).run st = .error .keyError st := by
  unfold processWith
  rw [hf]
  py_simp
  rw [if_neg (not_lt.mpr hw)]

theorem attenuateWith_key {m m₁ : LModel} {p : Physical} (hp : (toPhysical env clks ids []).run m = .ok p m₁) (ms : Option ℚ) :
    (attenuateWith env clks ids none ms).run m = .error .keyError m₁ := by
  unfold attenuateWith
  py_simp
  rw [hp]
  rfl

theorem attenuateWith_scale {m m₁ : LModel} {p : Physical} (hp : (toPhysical env clks ids []).run m = .ok p m₁) {key : String}
    {ref : List PyVal} (hr : dget m₁.attrCols key = some ref) {lo hi : PyVal} (hlo : pyMin ref = .ok lo) (hhi : pyMax ref = .ok hi) :
    (attenuateWith env clks ids (some key) none).run m = .error .keyError m₁ := by
  unfold attenuateWith
  py_simp
  rw [hp]
  simp only [option, Py.run_liftE, hr, Py.run_bind, hlo, hhi]

/-- Nor does a window with attenuation without `attenuation.key`, or without `attenuation.min_scale` even if all times are equal and
no scale is needed: if the mapping returns a model that can be converted, KeyError escapes. Elements, time and model are in
the state already. -/
theorem C128_attenuation_refuted {st : St LModel S δ} {shared : Bool} {w : Win δ} (hw : st.ts.getD (-1) ≤ w.ts) {els out : List (El δ)}
    {model m' m₁ : LModel} {p : Physical} (hels : els = sorted w.elements) (hout : resolveOutgoing (st.elements.getD []) els = .ok out)
    (hmap : (f.mapFn st.sampleset els (resolveIncoming (st.elements.getD []) els) out).run (st.model.getD initial) = .ok model m')
    (hp : (toPhysical env clks ids []).run model = .ok p m₁)
    (ho : o.attenuationKey = none ∨ o.minScale = none ∧ ∃ key ref lo hi, o.attenuationKey = some key ∧ dget m₁.attrCols key = some ref ∧
      pyMin ref = .ok lo ∧ pyMax ref = .ok hi) :
    ∃ st', (processWith env clks ids .attenuation o f initial shared w).run st = .error .keyError st' ∧
      st'.ts = some w.ts ∧ st'.elements = some els ∧ st'.model = some m₁ ∧ st'.sampleset = st.sampleset := by
  have hstep : (attenuateWith env clks ids o.attenuationKey o.minScale).run model = .error .keyError m₁ := by
    rcases ho with h | ⟨h, key, ref, lo, hi, h1, h2, h3, h4⟩
    · rw [h]; exact attenuateWith_key hp _
    · rw [h, h1]; exact attenuateWith_scale hp h2 h3 h4
  subst hels
  unfold processWith process
  py_simp
  rw [if_neg (not_lt.mpr hw)]
  simp only [currentElements, Py.run_liftE, hout, hmap]
  py_simp
  simp only [attenuationStage, hstep]
  py_simp
  exact ⟨_, rfl, rfl, rfl, rfl, rfl⟩

end

/-- The hypotheses are met: pipelines that are created but stop at their first window. -/
example : createPipeline (δ := Nat) .«partial» { windowSize := some 2, windowPeriod := some 1 } (.str "ising") = .ok (.sliding 2 1, .ising) ∧
    (St.start : St LModel Unit Nat).ts.getD (-1) ≤ (⟨2, [⟨0, 0, 7⟩]⟩ : Win Nat).ts :=
  ⟨by decide +kernel, by decide +kernel⟩

example : ∃ st', (processWith ⟨0, fun _ => ""⟩ (fun _ _ => 0) (fun _ => "c") .attenuation
      { windowSize := some 2, windowPeriod := some 1, attenuationKey := some "attributes.ts" } Ex.attFns
      (Ex.attModel false (.num 1) [.num 10, .num 20, .num 15]) false ⟨2, [⟨0, 0, 7⟩]⟩).run St.start = .error .keyError st' ∧
    st'.ts = some 2 ∧ st'.elements = some [⟨0, 0, 7⟩] := by
  obtain ⟨p, m₁, hp⟩ : ∃ p m₁, (toPhysical ⟨0, fun _ => ""⟩ (fun _ _ => 0) (fun _ => "c") []).run
    (Ex.attModel false (.num 1) [.num 10, .num 20, .num 15]) = .ok p m₁ := ⟨_, _, rfl⟩
  have hm : m₁ = ((toPhysical ⟨0, fun _ => ""⟩ (fun _ _ => 0) (fun _ => "c") []).run
    (Ex.attModel false (.num 1) [.num 10, .num 20, .num 15])).state := by rw [hp]; rfl
  obtain ⟨st', h1, h2, h3, _⟩ := C128_attenuation_refuted (st := St.start) (shared := false) (w := ⟨2, [⟨0, 0, 7⟩]⟩)
    (o := { windowSize := some 2, windowPeriod := some 1, attenuationKey := some "attributes.ts" }) (f := Ex.attFns)
    (initial := Ex.attModel false (.num 1) [.num 10, .num 20, .num 15]) (by decide) rfl rfl rfl hp
    (.inr ⟨rfl, "attributes.ts", [.num 10, .num 20, .num 15], .num 10, .num 20, rfl, by rw [hm]; decide +kernel, by decide +kernel, by decide +kernel⟩)
  exact ⟨st', h1, h2, h3⟩

end Sawatabi.Props
