import Verif.Props.PhysicalExact
import Verif.Props.Ragged

/-!
# C07, exactly: which removed names can be added again after a conversion
-/

namespace Sawatabi.Props

variable {m m' : LModel} {env : Env} {clks : Nat → Nat → ℚ} {ids : Nat → String} {ph : List (String × ℚ)} {p : Physical}

/-- **C07** after any successful conversion: let `ns` be the names that the removed interactions have after the merges of the
models `bs` of the constraints. A removed name that is one of them is free again and can be added with any valid arguments;
any other removed name is still there, still marked as removed, and cannot be added. -/
theorem C07_readd_exact (hm : m.Rect) (hu : m.names.Nodup) {n : String} (hr : IsRemoved m n)
    (h : (toPhysical env clks ids ph).run m = .ok p m') {bs : List LModel}
    (hbs : List.Forall₂ (fun p b => ConstraintModel env (clks p.2) (ids p.2) p.1.2 m.mtype b) m.constraints.zipIdx bs)
    {now : ℚ} {target : PyTarget} {name : PyName} {i : Inter} {c s : PyCoef} {attributes : PyAttrs} {ts : PyTs}
    (hd : target.Denotes i) (hnm : name.Names i n) (h1 : c ≠ .bad) (h2 : s ≠ .bad) (h3 : attributes ≠ .bad) (h4 : ts ≠ .bad) :
    let ns := (m.rows.filter (·.removed)).map fun r => renamed m.id (bs.map (·.names)) r.name
    (n ∈ ns → n ∉ m'.names ∧ ∃ m'', (addInteraction now target name c s attributes ts).run m' = .ok ⟨⟩ m'') ∧
    (n ∉ ns → IsRemoved m' n ∧ (addInteraction now target name c s attributes ts).run m' = .error .valueError m') := by
  obtain ⟨bs', hbs', _, hn1, hn2, rfl⟩ := (C22_exact hm hu).mp ⟨p, h⟩
  obtain rfl : bs = bs' := forall₂_unique (R := fun p b => ConstraintModel env (clks p.2) (ids p.2) p.1.2 m.mtype b)
    (fun a b b' h1 h2 => constraintModel_unique h1 h2) hbs hbs'
  intro ns
  have hrows : (markClean (m.prune fun r => !ns.contains r.name)).rows =
      (m.rows.filter fun r => !ns.contains r.name).map fun r => { r with dirty := false } := by
    simp [markClean, LModel.prune]
  constructor
  · intro hmem
    have hfree : n ∉ (markClean (m.prune fun r => !ns.contains r.name)).names := by
      unfold LModel.names
      rw [hrows]
      simp only [List.map_map, List.mem_map, List.mem_filter]
      rintro ⟨r, ⟨_, h5⟩, rfl⟩
      simp at h5
      exact h5 hmem
    exact ⟨hfree, (C02_add_succeeds_iff (markClean_rect (prune_rect hm _))).mpr ⟨⟨i, n, hd, hnm, hfree⟩, h1, h2, h3, h4⟩⟩
  · intro hmem
    have hrem : IsRemoved (markClean (m.prune fun r => !ns.contains r.name)) n := by
      obtain ⟨r, hr, rfl, hrm⟩ := hr
      unfold IsRemoved
      rw [hrows]
      refine ⟨{ r with dirty := false }, List.mem_map.mpr ⟨r, List.mem_filter.mpr ⟨hr, ?_⟩, rfl⟩, rfl, hrm⟩
      simpa using hmem
    exact ⟨hrem, C07_removed_not_added hrem hd hnm h1 h2 h3 h4⟩

/-- The model of `C07_readd_refuted`: there is such a name. -/
example : clashing.Rect ∧ clashing.names.Nodup ∧ IsRemoved clashing "x[0] (c)" ∧
    ((toPhysical ⟨0, fun _ => "t"⟩ (fun _ _ => 0) (fun _ => "1") []).run clashing).isOk = true ∧
    (PyTarget.var Ex.b0).Denotes (.lin Ex.b0) ∧ (PyName.str "x[0] (c)").Names (.lin Ex.b0) "x[0] (c)" := by
  refine ⟨⟨by decide +kernel, by decide +kernel, by decide +kernel, by decide +kernel⟩, by decide +kernel, ?_, by decide +kernel, ?_, ?_⟩
  · unfold IsRemoved; decide +kernel
  · constructor
  · exact .given _ _ (by decide)

end Sawatabi.Props
