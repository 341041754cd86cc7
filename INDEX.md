# Theorems, modules and axioms

Written by `tools/gen_index.py` from the output of `#print axioms`.
Short names: P = `propext`, C = `Classical.choice`, Q = `Quot.sound`.

## C01: Interaction names stay unique (partial)

| Theorem | Module | Axioms |
|---|---|---|
| `Sawatabi.Props.C01_names_unique_partial` | Props/History.lean | C Q P |
| `Sawatabi.Props.C01_merge_refuted` | Props/History.lean | C Q P |
| `Sawatabi.Props.C01_merge_iff` | Props/Merge.lean | C Q P |
| `Sawatabi.Props.C01_failed_refuted` | Props/PhysicalFailure.lean | C Q P |
| `Sawatabi.Props.C01_made_partial` | Props/Tidy.lean | C Q P |

## C02: add_interaction adds exactly one energy term (proved)

| Theorem | Module | Axioms |
|---|---|---|
| `Sawatabi.Props.C02_add_energy` | Props/Interactions.lean | C Q P |
| `Sawatabi.Props.C02_add_frame` | Props/Interactions.lean | C Q P |
| `Sawatabi.Props.C02_add_succeeds_iff` | Props/Interactions.lean | C Q P |

## C03: A raising add/update/remove changes nothing (partial)

| Theorem | Module | Axioms |
|---|---|---|
| `Sawatabi.Props.C03_remove_atomic` | Props/Interactions.lean | C Q P |
| `Sawatabi.Props.C03_add_atomic_partial` | Props/Interactions.lean | C Q P |
| `Sawatabi.Props.C03_update_atomic_partial` | Props/Interactions.lean | C Q P |
| `Sawatabi.Props.C03_add_atomic_refuted` | Props/Interactions.lean | C Q P |
| `Sawatabi.Props.C03_update_atomic_refuted` | Props/RaggedCalls.lean | C Q P |

## C04: 2-body targets are unordered and never degenerate (proved)

| Theorem | Module | Axioms |
|---|---|---|
| `Sawatabi.Props.C04_add_swap` | Props/Interactions.lean | C Q P |
| `Sawatabi.Props.C04_update_swap` | Props/Interactions.lean | C Q P |
| `Sawatabi.Props.C04_remove_swap` | Props/Interactions.lean | C Q P |
| `Sawatabi.Props.C04_getAttributes_swap` | Props/Interactions.lean | C Q P |
| `Sawatabi.Props.C04_degenerate_rejected` | Props/Interactions.lean | C Q P |

## C05: update_interaction changes only what it was given (proved)

| Theorem | Module | Axioms |
|---|---|---|
| `Sawatabi.Props.C05_update_frame` | Props/Interactions.lean | C Q P |
| `Sawatabi.Props.C05_update_attributes` | Props/Interactions.lean | C Q P |

## C06: update_interaction by target inserts when absent (partial)

| Theorem | Module | Axioms |
|---|---|---|
| `Sawatabi.Props.C06_update_absent_target_partial` | Props/Interactions.lean | C Q P |
| `Sawatabi.Props.C06_update_absent_name` | Props/Interactions.lean | C Q P |
| `Sawatabi.Props.C06_update_absent_refuted` | Props/Interactions.lean | C Q P |

## C07: Removed names are reserved until the next conversion (partial)

| Theorem | Module | Axioms |
|---|---|---|
| `Sawatabi.Props.C07_remove_marks` | Props/History.lean | C Q P |
| `Sawatabi.Props.C07_removed_stays` | Props/History.lean | C Q P |
| `Sawatabi.Props.C07_removed_not_added` | Props/History.lean | C Q P |
| `Sawatabi.Props.C07_removed_not_updated` | Props/History.lean | C Q P |
| `Sawatabi.Props.C07_remove_again` | Props/History.lean | C Q P |
| `Sawatabi.Props.C07_readd_partial` | Props/PhysicalState.lean | C Q P |
| `Sawatabi.Props.C07_made_partial` | Props/Ragged.lean | C Q P |
| `Sawatabi.Props.C07_readd_refuted` | Props/Ragged.lean | C Q P |
| `Sawatabi.Props.C07_readd_exact` | Props/ReaddExact.lean | C Q P |

## C08: Interaction table stays rectangular (partial)

| Theorem | Module | Axioms |
|---|---|---|
| `Sawatabi.Props.C08_rect_partial` | Props/History.lean | C Q P |
| `Sawatabi.Props.C08_rect_frame` | Props/History.lean | Q P |
| `Sawatabi.Props.C08_rect_refuted` | Props/History.lean | C Q P |

## C09: Attributes read back what was written (partial)

| Theorem | Module | Axioms |
|---|---|---|
| `Sawatabi.Props.C09_add_then_get` | Props/Attributes.lean | C Q P |
| `Sawatabi.Props.C09_add_others` | Props/Attributes.lean | C Q P |
| `Sawatabi.Props.C09_update_then_get_partial` | Props/Attributes.lean | C Q P |
| `Sawatabi.Props.C09_update_others_partial` | Props/Attributes.lean | C Q P |
| `Sawatabi.Props.C09_remove_keeps` | Props/Attributes.lean | C Q P |
| `Sawatabi.Props.C09_update_new_key_refuted` | Props/Attributes.lean | C Q P |
| `Sawatabi.Props.C09_update_exact` | Props/AttributesExact.lean | C Q P |
| `Sawatabi.Props.C09_update_iff` | Props/AttributesExact.lean | C Q P |
| `Sawatabi.Props.C09_update_others` | Props/AttributesExact.lean | C Q P |

## C10: Timestamps do not go backwards on update (partial)

| Theorem | Module | Axioms |
|---|---|---|
| `Sawatabi.Props.C10_explicit_timestamp_partial` | Props/Interactions.lean | C Q P |
| `Sawatabi.Props.C10_default_is_import_time` | Props/Interactions.lean | C Q P |
| `Sawatabi.Props.C10_default_timestamp_refuted` | Props/Interactions.lean | C Q P |

## C11: delete_variable removes exactly the variable's terms (partial)

| Theorem | Module | Axioms |
|---|---|---|
| `Sawatabi.Props.C11_constraints` | Props/DeleteConstraints.lean | C Q P |
| `Sawatabi.Props.C11_objective_partial` | Props/DeleteConstraints.lean | C Q P |
| `Sawatabi.Props.C11_made_objective_partial` | Props/DeleteConstraints.lean | C Q P |
| `Sawatabi.Props.C11_physical_partial` | Props/DeleteConstraints.lean | C Q P |
| `Sawatabi.Props.C11_physical_ising_partial` | Props/DeleteConstraints.lean | C Q P |
| `Sawatabi.Props.C11_delete_exact` | Props/DeleteExact.lean | C Q P |
| `Sawatabi.Props.C11_delete_clean_iff` | Props/DeleteExact.lean | C Q P |
| `Sawatabi.Props.C11_delete_energy_partial` | Props/DeleteFix.lean | C Q P |
| `Sawatabi.Props.C11_delete_independent_partial` | Props/DeleteFix.lean | C Q P |
| `Sawatabi.Props.C11_delete_rows_partial` | Props/DeleteFix.lean | C Q P |
| `Sawatabi.Props.C11_delete_duplicate_refuted` | Props/DeleteFix.lean | C Q P |
| `Sawatabi.Props.C11_made_partial` | Props/Tidy.lean | C Q P |

## C12: delete_variable works or leaves the model alone (partial)

| Theorem | Module | Axioms |
|---|---|---|
| `Sawatabi.Props.C12_delete_iff` | Props/DeleteFix.lean | C Q P |
| `Sawatabi.Props.C12_delete_succeeds_partial` | Props/DeleteFix.lean | C Q P |
| `Sawatabi.Props.C12_delete_refuted` | Props/DeleteFix.lean | C Q P |
| `Sawatabi.Props.C12_delete_equality_refuted` | Props/DeleteFix.lean | C Q P |
| `Sawatabi.Props.C12_left` | Props/DeleteLeft.lean | C Q P |
| `Sawatabi.Props.C12_retry` | Props/DeleteLeft.lean | C Q P |

## C13: fix_variable substitutes the value (partial)

| Theorem | Module | Axioms |
|---|---|---|
| `Sawatabi.Props.C13_fix_exact` | Props/DeleteFix.lean | C Q P |
| `Sawatabi.Props.C13_fix_energy_partial` | Props/DeleteFix.lean | C Q P |
| `Sawatabi.Props.C13_fix_zero` | Props/DeleteFix.lean | C Q P |
| `Sawatabi.Props.C13_fix_independent` | Props/DeleteFix.lean | C Q P |
| `Sawatabi.Props.C13_fix_reachable_partial` | Props/DeleteFix.lean | C Q P |
| `Sawatabi.Props.C13_fix_removed_refuted` | Props/DeleteFix.lean | C Q P |
| `Sawatabi.Props.C13_made` | Props/Tidy.lean | C Q P |

## C14: fix_variable also fixes the variable in constraints (partial)

| Theorem | Module | Axioms |
|---|---|---|
| `Sawatabi.Props.C14_exact_qubo` | Props/FixConstraints.lean | C Q P |
| `Sawatabi.Props.C14_exact_ising` | Props/FixConstraints.lean | C Q P |
| `Sawatabi.Props.C14_depends` | Props/FixConstraints.lean | C Q P |
| `Sawatabi.Props.C14_fixed_gone_partial` | Props/PhysicalTerms.lean | C Q P |
| `Sawatabi.Props.C14_constraint_refuted` | Props/PhysicalTerms.lean | C Q P |
| `Sawatabi.Props.C14_made_partial` | Props/Tidy.lean | C Q P |

## C15: fix_variable accepts exactly the admissible values (partial)

| Theorem | Module | Axioms |
|---|---|---|
| `Sawatabi.Props.C15_fix_rejects` | Props/DeleteFix.lean | C Q P |
| `Sawatabi.Props.C15_fix_ok_admissible` | Props/DeleteFix.lean | C Q P |
| `Sawatabi.Props.C15_fix_accepts_partial` | Props/DeleteFix.lean | C Q P |
| `Sawatabi.Props.C15_fix_iff` | Props/DeleteFix.lean | C Q P |
| `Sawatabi.Props.C15_fix_again_refuted` | Props/DeleteFix.lean | C Q P |
| `Sawatabi.Props.C15_left` | Props/FixLeft.lean | C Q P |
| `Sawatabi.Props.C15_retry` | Props/FixLeft.lean | C Q P |

## C16: get_size counts the alive variables (partial)

| Theorem | Module | Axioms |
|---|---|---|
| `Sawatabi.Props.C16_exact` | Props/SizeExact.lean | C Q P |
| `Sawatabi.Props.C16_size_iff` | Props/SizeExact.lean | C Q P |
| `Sawatabi.Props.C16_size_partial` | Props/Variables.lean | C Q P |
| `Sawatabi.Props.C16_size_along_history_partial` | Props/Variables.lean | C Q P |
| `Sawatabi.Props.C16_delete_fix_refuted` | Props/Variables.lean | C Q P |
| `Sawatabi.Props.C16_delete_unknown_refuted` | Props/Variables.lean | C Q P |
| `Sawatabi.Props.C16_recreate_refuted` | Props/Variables.lean | C Q P |

## C17: append grows arrays and keeps existing variables (partial)

| Theorem | Module | Axioms |
|---|---|---|
| `Sawatabi.Props.C17_append_unknown` | Props/Variables.lean | C Q P |
| `Sawatabi.Props.C17_append_exact` | Props/Variables.lean | C Q P |
| `Sawatabi.Props.C17_append_shape` | Props/Variables.lean | C Q P |
| `Sawatabi.Props.C17_append_iff` | Props/Variables.lean | C Q P |
| `Sawatabi.Props.C17_append_keeps` | Props/Variables.lean | C Q P |
| `Sawatabi.Props.C17_append_rank` | Props/Variables.lean | C Q P |
| `Sawatabi.Props.C17_append_rank_refuted` | Props/Variables.lean | C Q P |

## C18: Variable labels are distinct and complete (proved)

| Theorem | Module | Axioms |
|---|---|---|
| `Sawatabi.Props.C18_made` | Props/TidyExact.lean | C Q P |
| `Sawatabi.Props.C18_variables_iff` | Props/Variables.lean | C Q P |
| `Sawatabi.Props.C18_variables` | Props/Variables.lean | C Q P |
| `Sawatabi.Props.C18_variables_failed` | Props/Variables.lean | C Q P |
| `Sawatabi.Props.C18_arrays_along_history` | Props/Variables.lean | C Q P |
| `Sawatabi.Props.C18_all_size` | Props/Variables.lean | C Q P |
| `Sawatabi.Props.C18_labels_clash_refuted` | Props/Variables.lean | C Q P |

## C19: to_physical preserves the energy (no constraints) (partial)

| Theorem | Module | Axioms |
|---|---|---|
| `Sawatabi.Props.C19_made_partial` | Props/EndToEnd.lean | C Q P |
| `Sawatabi.Props.C19_energy_partial` | Props/PhysicalEnergy.lean | C Q P |
| `Sawatabi.Props.C19_energy_prefix` | Props/PhysicalEnergy.lean | C Q P |
| `Sawatabi.Props.C19_succeeds_partial` | Props/PhysicalEnergy.lean | C Q P |
| `Sawatabi.Props.C19_ragged_refuted` | Props/PhysicalEnergy.lean | C Q P |

## C20: to_physical adds the constraint penalties (QUBO) (partial)

| Theorem | Module | Axioms |
|---|---|---|
| `Sawatabi.Props.C20_qubo_energy_partial` | Props/PhysicalEnergy.lean | C Q P |
| `Sawatabi.Props.C20_success_exact` | Props/PhysicalExact.lean | C Q P |
| `Sawatabi.Props.C20_succeeds_partial` | Props/PhysicalFrame.lean | C Q P |
| `Sawatabi.Props.C20_success_iff` | Props/PhysicalSuccess.lean | C Q P |
| `Sawatabi.Props.C20_made_partial` | Props/Tidy.lean | C Q P |

## C21: to_physical adds the constraint penalties (Ising) (partial)

| Theorem | Module | Axioms |
|---|---|---|
| `Sawatabi.Props.C21_ising_energy_partial` | Props/PhysicalEnergy.lean | C Q P |
| `Sawatabi.Props.C21_ising_gap_partial` | Props/PhysicalEnergy.lean | C Q P |
| `Sawatabi.Props.C21_exact_refuted` | Props/PhysicalEnergy.lean | C Q P |
| `Sawatabi.Props.C21_success_iff` | Props/PhysicalSuccess.lean | C Q P |
| `Sawatabi.Props.C21_drift_partial` | Props/PhysicalSuccess.lean | C Q P |
| `Sawatabi.Props.C21_made_iff` | Props/Tidy.lean | C Q P |
| `Sawatabi.Props.C21_made_partial` | Props/Tidy.lean | C Q P |

## C22: to_physical only prunes the logical model (partial)

| Theorem | Module | Axioms |
|---|---|---|
| `Sawatabi.Props.C22_exact` | Props/PhysicalExact.lean | C Q P |
| `Sawatabi.Props.C22_only_prunes_iff` | Props/PhysicalExact.lean | C Q P |
| `Sawatabi.Props.C22_only_prunes_partial` | Props/PhysicalFrame.lean | C Q P |
| `Sawatabi.Props.C22_again_partial` | Props/PhysicalFrame.lean | C Q P |
| `Sawatabi.Props.C22_again_qubo_partial` | Props/PhysicalFrame.lean | C Q P |
| `Sawatabi.Props.C22_clash_refuted` | Props/PhysicalState.lean | C Q P |
| `Sawatabi.Props.C22_again_succeeds_partial` | Props/PhysicalSuccess.lean | C Q P |
| `Sawatabi.Props.C22_made_partial` | Props/Tidy.lean | C Q P |
| `Sawatabi.Props.C22_made_exact` | Props/TidyExact.lean | C Q P |

## C23: A failed to_physical leaves the model usable (partial)

| Theorem | Module | Axioms |
|---|---|---|
| `Sawatabi.Props.C23_left_qubo_partial` | Props/PhysicalFailure.lean | C Q P |
| `Sawatabi.Props.C23_retry_qubo_partial` | Props/PhysicalFailure.lean | C Q P |
| `Sawatabi.Props.C23_left_ising_partial` | Props/PhysicalFailure.lean | C Q P |
| `Sawatabi.Props.C23_retry_ising_partial` | Props/PhysicalFailure.lean | C Q P |
| `Sawatabi.Props.C23_harmless_iff` | Props/PhysicalFailure.lean | C Q P |
| `Sawatabi.Props.C23_unchanged_partial` | Props/PhysicalState.lean | C Q P |
| `Sawatabi.Props.C23_frame` | Props/PhysicalState.lean | C Q P |
| `Sawatabi.Props.C23_retry_refuted` | Props/PhysicalState.lean | C Q P |
| `Sawatabi.Props.C23_made_partial` | Props/Tidy.lean | C Q P |

## C24: Variable indices of a physical model form a bijection (partial)

| Theorem | Module | Axioms |
|---|---|---|
| `Sawatabi.Props.C24_numbering_partial` | Props/PhysicalTerms.lean | C Q P |
| `Sawatabi.Props.C24_bijection_partial` | Props/PhysicalTerms.lean | C Q P |
| `Sawatabi.Props.C24_reachable_partial` | Props/PhysicalTerms.lean | C Q P |
| `Sawatabi.Props.C24_exact` | Props/PhysicalTerms.lean | C Q P |
| `Sawatabi.Props.C24_inverse_iff` | Props/PhysicalTerms.lean | C Q P |
| `Sawatabi.Props.C24_clash_refuted` | Props/PhysicalTerms.lean | C Q P |
| `Sawatabi.Props.C24_made_partial` | Props/TidyExact.lean | C Q P |

## C25: Every variable of a physical model has an index (partial)

| Theorem | Module | Axioms |
|---|---|---|
| `Sawatabi.Props.C25_made_partial` | Props/PhysicalMade.lean | C Q P |
| `Sawatabi.Props.C25_index_iff` | Props/PhysicalTerms.lean | C Q P |
| `Sawatabi.Props.C25_polynomial_iff` | Props/PhysicalTerms.lean | C Q P |
| `Sawatabi.Props.C25_polynomial_constraints_partial` | Props/PhysicalTerms.lean | C Q P |
| `Sawatabi.Props.C25_polynomial_partial` | Props/PhysicalTerms.lean | C Q P |
| `Sawatabi.Props.C25_unregistered_refuted` | Props/PhysicalTerms.lean | C Q P |
| `Sawatabi.Props.C25_deleted_refuted` | Props/PhysicalTerms.lean | C Q P |
| `Sawatabi.Props.C25_fix_refuted` | Props/PhysicalTerms.lean | C Q P |

## C26: Physical models carry no zero or duplicate terms (partial)

| Theorem | Module | Axioms |
|---|---|---|
| `Sawatabi.Props.C26_depends` | Props/Depends.lean | C Q P |
| `Sawatabi.Props.C26_made` | Props/EndToEnd.lean | C Q P |
| `Sawatabi.Props.C26_made_sums_partial` | Props/EndToEnd.lean | C Q P |
| `Sawatabi.Props.C26_no_duplicates` | Props/PhysicalTerms.lean | C Q P |
| `Sawatabi.Props.C26_sums_partial` | Props/PhysicalTerms.lean | C Q P |
| `Sawatabi.Props.C26_sums_exact` | Props/PhysicalTerms.lean | C Q P |
| `Sawatabi.Props.C26_ragged_refuted` | Props/PhysicalTerms.lean | C Q P |
| `Sawatabi.Props.C26_constraints_partial` | Props/PhysicalTerms.lean | C Q P |
| `Sawatabi.Props.C26_qubo_partial` | Props/PhysicalTerms.lean | C Q P |

## C27: The order of interactions does not matter (partial)

| Theorem | Module | Axioms |
|---|---|---|
| `Sawatabi.Props.C27_success_constraints_partial` | Props/PhysicalSuccess.lean | C Q P |
| `Sawatabi.Props.C27_order_partial` | Props/PhysicalTerms.lean | C Q P |
| `Sawatabi.Props.C27_success_partial` | Props/PhysicalTerms.lean | C Q P |
| `Sawatabi.Props.C27_ragged_refuted` | Props/Ragged.lean | C Q P |
| `Sawatabi.Props.C27_made_partial` | Props/Ragged.lean | C Q P |

## C28: to_bqm has the energy of the model (proved)

| Theorem | Module | Axioms |
|---|---|---|
| `Sawatabi.Props.C28_bqm_energy` | Props/PhysicalConvert.lean | C Q P |
| `Sawatabi.Props.C28_bqm_energy_positive` | Props/PhysicalConvert.lean | C Q P |

## C29: to_polynomial has the energy of the model (proved)

| Theorem | Module | Axioms |
|---|---|---|
| `Sawatabi.Props.C29_polynomial_energy` | Props/PhysicalConvert.lean | C Q P |
| `Sawatabi.Props.C29_decode` | Props/PhysicalConvert.lean | C Q P |
| `Sawatabi.Props.C29_roundtrip` | Props/PhysicalConvert.lean | C Q P |

## C30: N-hot constraint penalty (proved)

| Theorem | Module | Axioms |
|---|---|---|
| `Sawatabi.Props.C30_nHot_energy` | Props/Constraints.lean | C Q P |
| `Sawatabi.Props.C30_nHot_minimisers` | Props/Constraints.lean | C Q P |

## C31: Zero-or-one-hot constraint penalty (proved)

| Theorem | Module | Axioms |
|---|---|---|
| `Sawatabi.Props.C31_zeroOrOneHot_energy` | Props/Constraints.lean | C Q P |
| `Sawatabi.Props.C31_zeroOrOneHot_minimisers` | Props/Constraints.lean | C Q P |

## C32: Equality constraint penalty (partial)

| Theorem | Module | Axioms |
|---|---|---|
| `Sawatabi.Props.C32_equality_energy_partial` | Props/Constraints.lean | C Q P |
| `Sawatabi.Props.C32_equality_minimisers_partial` | Props/Constraints.lean | C Q P |
| `Sawatabi.Props.C32_overlap_raises_partial` | Props/Constraints.lean | C Q P |
| `Sawatabi.Props.C32_equality_refuted` | Props/Constraints.lean | C Q P |

## C33: Set iteration order is irrelevant for constraints (proved)

| Theorem | Module | Axioms |
|---|---|---|
| `Sawatabi.Props.C33_nHot_order` | Props/Constraints.lean | C Q P |
| `Sawatabi.Props.C33_zeroOrOneHot_order` | Props/Constraints.lean | C Q P |
| `Sawatabi.Props.C33_equality_order` | Props/Constraints.lean | C Q P |

## C34: Constraint variable sets behave as sets (proved)

| Theorem | Module | Axioms |
|---|---|---|
| `Sawatabi.Props.C34_add` | Props/Constraints.lean | C Q P |
| `Sawatabi.Props.C34_remove` | Props/Constraints.lean | C Q P |
| `Sawatabi.Props.C34_history` | Props/Constraints.lean | C Q P |
| `Sawatabi.Props.C34_duplicates` | Props/Constraints.lean | C Q P |
| `Sawatabi.Props.C34_edit` | Props/World.lean | C Q P |
| `Sawatabi.Props.C34_edit_world` | Props/World.lean | C Q P |

## C35: to_ising / to_qubo preserve the energy (partial)

| Theorem | Module | Axioms |
|---|---|---|
| `Sawatabi.Props.C35_toIsing_exact_partial` | Props/Conversion.lean | C Q P |
| `Sawatabi.Props.C35_toQubo_exact_partial` | Props/Conversion.lean | C Q P |
| `Sawatabi.Props.C35_toIsing_shift_partial` | Props/Conversion.lean | C Q P |
| `Sawatabi.Props.C35_toQubo_shift_partial` | Props/Conversion.lean | C Q P |
| `Sawatabi.Props.C35_toIsing_gap_partial` | Props/Conversion.lean | C Q P |
| `Sawatabi.Props.C35_toQubo_gap_partial` | Props/Conversion.lean | C Q P |
| `Sawatabi.Props.C35_same_type` | Props/Conversion.lean | C Q P |
| `Sawatabi.Props.C35_energy_refuted` | Props/Conversion.lean | C Q P |
| `Sawatabi.Props.C35_scale_refuted` | Props/Conversion.lean | C Q P |
| `Sawatabi.Props.C35_toIsing_active_partial` | Props/ConversionActive.lean | C Q P |
| `Sawatabi.Props.C35_toQubo_active_partial` | Props/ConversionActive.lean | C Q P |
| `Sawatabi.Props.C35_made_partial` | Props/TidyMore.lean | C Q P |
| `Sawatabi.Props.C35_made_gap_partial` | Props/TidyMore.lean | C Q P |

## C36: to_ising and to_qubo are inverse on energies (partial)

| Theorem | Module | Axioms |
|---|---|---|
| `Sawatabi.Props.C36_qubo_roundtrip_partial` | Props/Conversion.lean | C Q P |
| `Sawatabi.Props.C36_ising_roundtrip_partial` | Props/Conversion.lean | C Q P |
| `Sawatabi.Props.C36_duplicate_refuted` | Props/Conversion.lean | C Q P |
| `Sawatabi.Props.C36_qubo_active_partial` | Props/ConversionActive.lean | C Q P |
| `Sawatabi.Props.C36_ising_active_partial` | Props/ConversionActive.lean | C Q P |
| `Sawatabi.Props.C36_made_qubo_partial` | Props/Tidy.lean | C Q P |
| `Sawatabi.Props.C36_made_ising_partial` | Props/Tidy.lean | C Q P |

## C37: Type conversion is total or atomic (partial)

| Theorem | Module | Axioms |
|---|---|---|
| `Sawatabi.Props.C37_succeeds_partial` | Props/Conversion.lean | C Q P |
| `Sawatabi.Props.C37_success_iff` | Props/Conversion.lean | C Q P |
| `Sawatabi.Props.C37_placeholder_raises_partial` | Props/Conversion.lean | C Q P |
| `Sawatabi.Props.C37_atomic_refuted` | Props/Conversion.lean | C Q P |
| `Sawatabi.Props.C37_clash_refuted` | Props/Conversion.lean | C Q P |
| `Sawatabi.Props.C37_left_toIsing` | Props/ConversionLeft.lean | C Q P |
| `Sawatabi.Props.C37_left_toQubo` | Props/ConversionLeft.lean | C Q P |
| `Sawatabi.Props.C37_retry` | Props/ConversionLeft.lean | C Q P |
| `Sawatabi.Props.C37_made_iff` | Props/TidyMore.lean | C Q P |

## C38: merge adds energies (partial)

| Theorem | Module | Axioms |
|---|---|---|
| `Sawatabi.Props.C38_merge_energy_partial` | Props/Merge.lean | C Q P |
| `Sawatabi.Props.C38_merge_same_type` | Props/Merge.lean | C Q P |
| `Sawatabi.Props.C38_merge_into_ising_partial` | Props/Merge.lean | C Q P |
| `Sawatabi.Props.C38_merge_into_qubo_partial` | Props/Merge.lean | C Q P |
| `Sawatabi.Props.C38_merge_into_ising_gap_partial` | Props/Merge.lean | C Q P |
| `Sawatabi.Props.C38_merge_into_qubo_gap_partial` | Props/Merge.lean | C Q P |
| `Sawatabi.Props.C38_merge_types_refuted` | Props/Merge.lean | C Q P |
| `Sawatabi.Props.C38_made_partial` | Props/TidyMore.lean | C Q P |

## C39: merge takes the elementwise maximum of shapes (partial)

| Theorem | Module | Axioms |
|---|---|---|
| `Sawatabi.Props.C39_merge_arrays` | Props/Merge.lean | C Q P |
| `Sawatabi.Props.C39_merge_arrays_types` | Props/Merge.lean | C Q P |
| `Sawatabi.Props.C39_merge_labels` | Props/Merge.lean | C Q P |
| `Sawatabi.Props.C39_foreign_array_refuted` | Props/Merge.lean | C Q P |
| `Sawatabi.Props.C39_exact` | Props/MergeExact.lean | C Q P |
| `Sawatabi.Props.C39_labels_exact` | Props/MergeExact.lean | C Q P |

## C40: A failed merge leaves both models unchanged (partial)

| Theorem | Module | Axioms |
|---|---|---|
| `Sawatabi.Props.C40_merge_atomic_partial` | Props/Merge.lean | C Q P |
| `Sawatabi.Props.C40_argument_unchanged_partial` | Props/Merge.lean | C Q P |
| `Sawatabi.Props.C40_constraint_clash_refuted` | Props/Merge.lean | C Q P |
| `Sawatabi.Props.C40_argument_refuted` | Props/Merge.lean | C Q P |
| `Sawatabi.Props.C40_argument_failed_refuted` | Props/Merge.lean | C Q P |
| `Sawatabi.Props.C40_exact_partial` | Props/MergeExact.lean | C Q P |
| `Sawatabi.Props.C40_success_iff_partial` | Props/MergeExact.lean | C Q P |
| `Sawatabi.Props.C40_argument_iff` | Props/MergeExact.lean | C Q P |
| `Sawatabi.Props.C40_made_partial` | Props/TidyExact.lean | C Q P |
| `Sawatabi.Props.C40_made_raising_partial` | Props/TidyExact.lean | C Q P |

## C41: merge keeps constraints and attributes (partial)

| Theorem | Module | Axioms |
|---|---|---|
| `Sawatabi.Props.C41_merge_constraints` | Props/Merge.lean | C Q P |
| `Sawatabi.Props.C41_merge_interactions` | Props/Merge.lean | C Q P |
| `Sawatabi.Props.C41_unregistered_refuted` | Props/Merge.lean | C Q P |
| `Sawatabi.Props.C41_made_constraints` | Props/TidyMore.lean | C Q P |
| `Sawatabi.Props.C41_made_interactions` | Props/TidyMore.lean | C Q P |

## C42: from_pyqubo imports the expression's energy (partial)

| Theorem | Module | Axioms |
|---|---|---|
| `Sawatabi.Props.C42_energy_partial` | Props/Pyqubo.lean | C Q P |
| `Sawatabi.Props.C42_import_energy` | Props/Pyqubo.lean | C Q P |
| `Sawatabi.Props.C42_unchanged_partial` | Props/Pyqubo.lean | C Q P |
| `Sawatabi.Props.C42_success` | Props/Pyqubo.lean | C Q P |
| `Sawatabi.Props.C42_reimport_refuted` | Props/Pyqubo.lean | C Q P |
| `Sawatabi.Props.C42_offset_refuted` | Props/Pyqubo.lean | C Q P |
| `Sawatabi.Props.C42_success_iff` | Props/PyquboExact.lean | C Q P |
| `Sawatabi.Props.C42_argument_exact_partial` | Props/PyquboExact.lean | C Q P |
| `Sawatabi.Props.C42_argument_iff` | Props/PyquboExact.lean | C Q P |
| `Sawatabi.Props.C42_raises_exact` | Props/PyquboExact.lean | C Q P |
| `Sawatabi.Props.C42_reimport_exact_partial` | Props/PyquboExact.lean | C Q P |

## C43: Reported energy is the energy of the sample (proved)

| Theorem | Module | Axioms |
|---|---|---|
| `Sawatabi.Props.C43_reported_energy` | Props/SolverMade.lean | C Q P |

## C44: Energy history is the energy along the run (proved)

| Theorem | Module | Axioms |
|---|---|---|
| `Sawatabi.Props.C44_energy_history` | Props/SolverMade.lean | C Q P |
| `Sawatabi.Props.C44_initial_energy` | Props/SolverMade.lean | C Q P |

## C45: Flip difference is exact (proved)

| Theorem | Module | Axioms |
|---|---|---|
| `Sawatabi.Props.C45_flip_difference` | Props/SolverMade.lean | C Q P |

## C46: Samples are well-formed (proved)

| Theorem | Module | Axioms |
|---|---|---|
| `Sawatabi.Props.C46_samples` | Props/SolverMade.lean | C Q P |

## C47: The pre-drawn random numbers suffice (proved)

| Theorem | Module | Axioms |
|---|---|---|
| `Sawatabi.Props.C47_used` | Props/SolverMade.lean | C Q P |
| `Sawatabi.Props.C47_no_index_error` | Props/SolverMade.lean | C Q P |

## C48: Forward temperature schedule (proved)

| Theorem | Module | Axioms |
|---|---|---|
| `Sawatabi.Props.C48_forward` | Props/SolverMade.lean | C Q P |
| `Sawatabi.Props.C48_positive` | Props/SolverMade.lean | C Q P |

## C49: Reverse temperature schedule (partial)

| Theorem | Module | Axioms |
|---|---|---|
| `Sawatabi.Props.C49_reverse_partial` | Props/SolverSchedule.lean | C Q P |
| `Sawatabi.Props.C49_positive` | Props/SolverSchedule.lean | C Q P |
| `Sawatabi.Props.C49_bounded` | Props/SolverSchedule.lean | C Q P |
| `Sawatabi.Props.C49_bounded_refuted` | Props/SolverSchedule.lean | C Q P |
| `Sawatabi.Props.C49_bounded_exact` | Props/SolverSchedule.lean | C Q P |
| `Sawatabi.Props.C49_monotone` | Props/SolverSchedule.lean | C Q P |

## C50: Statistics have one entry per sweep (proved)

| Theorem | Module | Axioms |
|---|---|---|
| `Sawatabi.Props.C50_statistics` | Props/SolverMade.lean | C Q P |

## C51: Downhill moves are always taken, greedy runs never climb (proved)

| Theorem | Module | Axioms |
|---|---|---|
| `Sawatabi.Props.C51_downhill` | Props/SolverMade.lean | C Q P |
| `Sawatabi.Props.C51_uphill` | Props/SolverMade.lean | C Q P |
| `Sawatabi.Props.C51_climb` | Props/SolverMade.lean | C Q P |
| `Sawatabi.Props.C51_greedy` | Props/SolverMade.lean | C Q P |

## C52: Initial states are honoured (partial)

| Theorem | Module | Axioms |
|---|---|---|
| `Sawatabi.Props.C52_zero_sweeps_partial` | Props/SolverArgs.lean | C Q P |
| `Sawatabi.Props.C52_wrong_number` | Props/SolverArgs.lean | C Q P |
| `Sawatabi.Props.C52_empty_refuted` | Props/SolverArgs.lean | C Q P |
| `Sawatabi.Props.C52_independent` | Props/SolverArgs.lean | C Q P |
| `Sawatabi.Props.C52_zero_sweeps` | Props/SolverMade.lean | C Q P |

## C53: solve does not change its arguments (partial)

| Theorem | Module | Axioms |
|---|---|---|
| `Sawatabi.Props.C53_ising_unchanged` | Props/SolverArgs.lean | C Q P |
| `Sawatabi.Props.C53_qubo_exact` | Props/SolverArgs.lean | C Q P |
| `Sawatabi.Props.C53_unchanged_iff` | Props/SolverArgs.lean | C Q P |
| `Sawatabi.Props.C53_qubo_refuted` | Props/SolverArgs.lean | C Q P |
| `Sawatabi.Props.C53_again` | Props/SolverArgs.lean | C Q P |

## C54: Every seed is reproducible (partial)

| Theorem | Module | Axioms |
|---|---|---|
| `Sawatabi.Props.C54_seed_partial` | Props/SolverArgs.lean | C Q P |
| `Sawatabi.Props.C54_zero_refuted` | Props/SolverArgs.lean | C Q P |

## C55: Valid options never crash the annealing (partial)

| Theorem | Module | Axioms |
|---|---|---|
| `Sawatabi.Props.C55_no_crash_partial` | Props/SolverArgs.lean | C Q P |
| `Sawatabi.Props.C55_exact` | Props/SolverArgs.lean | C Q P |
| `Sawatabi.Props.C55_empty_reverse_refuted` | Props/SolverArgs.lean | C Q P |
| `Sawatabi.Props.C55_negative_sweeps_refuted` | Props/SolverArgs.lean | C Q P |
| `Sawatabi.Props.C55_missing_variable_refuted` | Props/SolverArgs.lean | C Q P |
| `Sawatabi.Props.C55_deleted_variable_refuted` | Props/SolverArgs.lean | C Q P |
| `Sawatabi.Props.C55_from_calls` | Props/SolverMade.lean | C Q P |
| `Sawatabi.Props.C55_made_partial` | Props/SolverUsable.lean | C Q P |

## C56: Empty models are rejected before sampling (proved)

| Theorem | Module | Axioms |
|---|---|---|
| `Sawatabi.Props.C56_empty` | Props/Samplers.lean | C Q P |
| `Sawatabi.Props.C56_nonempty` | Props/Samplers.lean | C Q P |

## C57: Exact local solver returns a ground state (proved)

| Theorem | Module | Axioms |
|---|---|---|
| `Sawatabi.Props.C57_all_assignments` | Props/SolverMade.lean | C Q P |
| `Sawatabi.Props.C57_ground_state` | Props/SolverMade.lean | C Q P |

## C58: Optigan samples are decoded to the right variables with model energies (partial)

| Theorem | Module | Axioms |
|---|---|---|
| `Sawatabi.Props.C58_decode` | Props/Samplers.lean | C Q P |
| `Sawatabi.Props.C58_energy_partial` | Props/Samplers.lean | C Q P |
| `Sawatabi.Props.C58_success` | Props/Samplers.lean | C Q P |
| `Sawatabi.Props.C58_ising` | Props/Samplers.lean | C Q P |
| `Sawatabi.Props.C58_offset_refuted` | Props/Samplers.lean | C Q P |
| `Sawatabi.Props.C58_unbound` | Props/Samplers.lean | C Q P |
| `Sawatabi.Props.C58_access` | Props/Samplers.lean | C Q P |

## C59: NPP: the two partitions are complementary (proved)

| Theorem | Module | Axioms |
|---|---|---|
| `Sawatabi.Props.C59_complementary` | Props/Npp.lean | C Q P |

## C60: NPP: the answer flag is exact (proved)

| Theorem | Module | Axioms |
|---|---|---|
| `Sawatabi.Props.C60_flag` | Props/Npp.lean | C Q P |

## C61: NPP: the difference is minimal (proved)

| Theorem | Module | Axioms |
|---|---|---|
| `Sawatabi.Props.C61_minimal` | Props/Npp.lean | C Q P |

## C62: NPP: enumerate_all returns all optimal partitions (partial)

| Theorem | Module | Axioms |
|---|---|---|
| `Sawatabi.Props.C62_sound` | Props/Npp.lean | C Q P |
| `Sawatabi.Props.C62_complete_partial` | Props/Npp.lean | C Q P |
| `Sawatabi.Props.C62_exact` | Props/Npp.lean | C Q P |
| `Sawatabi.Props.C62_single_refuted` | Props/Npp.lean | Q P |
| `Sawatabi.Props.C62_zero_refuted` | Props/Npp.lean | Q P |

## C63: NPP: always answers (partial)

| Theorem | Module | Axioms |
|---|---|---|
| `Sawatabi.Props.C63_answers` | Props/Npp.lean | C Q P |
| `Sawatabi.Props.C63_enumerate_partial` | Props/Npp.lean | C Q P |
| `Sawatabi.Props.C63_none_refuted` | Props/Npp.lean | Q P |

## C64: Exactly one output per window (partial)

| Theorem | Module | Axioms |
|---|---|---|
| `Sawatabi.Props.C64_refuted` | Props/Ragged.lean | C Q P |
| `Sawatabi.Props.C64_one_output_partial` | Props/Stream.lean | C Q P |
| `Sawatabi.Props.C64_all_windows_partial` | Props/Stream.lean | C Q P |
| `Sawatabi.Props.C64_one` | Props/StreamExact.lean | Q P |
| `Sawatabi.Props.C64_escapes_exact` | Props/StreamExact.lean | C Q P |

## C65: Stale windows are ignored (proved)

| Theorem | Module | Axioms |
|---|---|---|
| `Sawatabi.Props.C65_stale` | Props/Stream.lean | Q P |
| `Sawatabi.Props.C65_not_stale` | Props/Stream.lean | C Q P |
| `Sawatabi.Props.C65_monotone` | Props/Stream.lean | C Q P |
| `Sawatabi.Props.C65_first_refuted` | Props/Stream.lean | Q P |
| `Sawatabi.Props.C65_exact` | Props/StreamExact.lean | Q P |
| `Sawatabi.Props.C65_start` | Props/StreamExact.lean | Q P |
| `Sawatabi.Props.C65_monotone_all` | Props/StreamExact.lean | C Q P |

## C66: incoming/outgoing are the difference of consecutive windows (proved)

| Theorem | Module | Axioms |
|---|---|---|
| `Sawatabi.Props.C66_differences` | Props/Stream.lean | C Q P |
| `Sawatabi.Props.C66_replay` | Props/Stream.lean | C Q P |
| `Sawatabi.Props.C66_sliding` | Props/Stream.lean | C Q P |
| `Sawatabi.Props.C66_all` | Props/StreamExact.lean | C Q P |

## C67: Incremental never forgets (partial)

| Theorem | Module | Axioms |
|---|---|---|
| `Sawatabi.Props.C67_exact` | Props/Stream.lean | C Q P |
| `Sawatabi.Props.C67_incremental` | Props/Stream.lean | C Q P |
| `Sawatabi.Props.C67_late_refuted` | Props/Stream.lean | Q P |

## C68: Partial: dropped elements are reported (partial)

| Theorem | Module | Axioms |
|---|---|---|
| `Sawatabi.Props.C68_reported` | Props/StreamExact.lean | C Q P |
| `Sawatabi.Props.C68_once_exact` | Props/StreamExact.lean | C Q P |
| `Sawatabi.Props.C68_elements_partial` | Props/StreamState.lean | C Q P |
| `Sawatabi.Props.C68_once_partial` | Props/StreamState.lean | Q P |
| `Sawatabi.Props.C68_twice_refuted` | Props/StreamState.lean | Q P |
| `Sawatabi.Props.C68_outgoing_refuted` | Props/StreamState.lean | Q P |

## C69: A failed map loses no data (partial)

| Theorem | Module | Axioms |
|---|---|---|
| `Sawatabi.Props.C69_never_again` | Props/StreamState.lean | C Q P |
| `Sawatabi.Props.C69_lost_refuted` | Props/StreamState.lean | Q P |
| `Sawatabi.Props.C69_incremental_partial` | Props/StreamState.lean | C Q P |

## C70: Model and sampleset state advance together with success (partial)

| Theorem | Module | Axioms |
|---|---|---|
| `Sawatabi.Props.C70_exact` | Props/StreamHeld.lean | Q P |
| `Sawatabi.Props.C70_state_partial` | Props/StreamState.lean | Q P |
| `Sawatabi.Props.C70_shared_refuted` | Props/StreamState.lean | Q P |

## C71: Elements are processed in event-time order (proved)

| Theorem | Module | Axioms |
|---|---|---|
| `Sawatabi.Props.C71_arrival_order` | Props/Stream.lean | C Q P |
| `Sawatabi.Props.C71_sorted` | Props/Stream.lean | C Q P |

## C72: Attenuation scales interpolate (partial)

| Theorem | Module | Axioms |
|---|---|---|
| `Sawatabi.Props.C72_interpolates_partial` | Props/Attenuation.lean | C Q P |
| `Sawatabi.Props.C72_equal` | Props/Attenuation.lean | C Q P |
| `Sawatabi.Props.C72_nan_refuted` | Props/Attenuation.lean | C Q P |
| `Sawatabi.Props.C72_nan_first` | Props/AttenuationExact.lean | C Q P |
| `Sawatabi.Props.C72_nan_later` | Props/AttenuationExact.lean | C Q P |

## C73: Attenuation does not crash the pipeline (partial)

| Theorem | Module | Axioms |
|---|---|---|
| `Sawatabi.Props.C73_ok_partial` | Props/Attenuation.lean | C Q P |
| `Sawatabi.Props.C73_escapes` | Props/Attenuation.lean | C Q P |
| `Sawatabi.Props.C73_refuted` | Props/Attenuation.lean | C Q P |
| `Sawatabi.Props.C73_exact` | Props/AttenuationExact.lean | C Q P |
| `Sawatabi.Props.C73_ok_iff` | Props/AttenuationExact.lean | C Q P |

## C74: Indices are consecutive (proved)

| Theorem | Module | Axioms |
|---|---|---|
| `Sawatabi.Props.C74_indices` | Props/Stream.lean | Q P |
| `Sawatabi.Props.C74_unique` | Props/Stream.lean | C Q P |

## C75: Number input reads exactly the decimal lines (partial)

| Theorem | Module | Axioms |
|---|---|---|
| `Sawatabi.Props.C75_exact` | Props/Utils.lean | C Q P |
| `Sawatabi.Props.C75_numbers_partial` | Props/Utils.lean | C Q P |
| `Sawatabi.Props.C75_newline_refuted` | Props/Utils.lean | P |

## C76: Elementwise helpers (proved)

| Theorem | Module | Axioms |
|---|---|---|
| `Sawatabi.Props.C76_pointwise` | Props/Utils.lean | C Q P |
| `Sawatabi.Props.C76_inverse` | Props/Utils.lean | C Q P |
| `Sawatabi.Props.C76_rejects` | Props/Utils.lean | C Q P |
| `Sawatabi.Props.C76_lengths` | Props/Utils.lean | C Q P |
| `Sawatabi.Props.C76_used` | Props/Utils.lean | C Q P |

## C77: Model type and variable type maps are inverse (proved)

| Theorem | Module | Axioms |
|---|---|---|
| `Sawatabi.Props.C77_inverse` | Props/Utils.lean | none |
| `Sawatabi.Props.C77_rejects` | Props/Utils.lean | C Q P |
| `Sawatabi.Props.C77_values` | Props/Utils.lean | none |

## C78: Constraint construction checks its arguments (proved)

| Theorem | Module | Axioms |
|---|---|---|
| `Sawatabi.Props.C78_nHot` | Props/Construction.lean | C Q P |
| `Sawatabi.Props.C78_zeroOrOneHot` | Props/Construction.lean | C Q P |
| `Sawatabi.Props.C78_equality` | Props/Construction.lean | C Q P |

## C79: Flattening is row-major and complete (proved)

| Theorem | Module | Axioms |
|---|---|---|
| `Sawatabi.Props.C79_leaves` | Props/Utils.lean | C Q P |
| `Sawatabi.Props.C79_row_major` | Props/Utils.lean | C Q P |

## C80: The streaming number partitioning keeps the model of the window (partial)

| Theorem | Module | Axioms |
|---|---|---|
| `Sawatabi.Props.C80_window` | Props/NppStream.lean | C Q P |
| `Sawatabi.Props.C80_incremental` | Props/NppStream.lean | C Q P |
| `Sawatabi.Props.C80_equal_times_refuted` | Props/NppStream.lean | C Q P |

## C81: The streaming number partitioning reports optimal partitions (partial)

| Theorem | Module | Axioms |
|---|---|---|
| `Sawatabi.Props.C81_window` | Props/NppStream.lean | C Q P |
| `Sawatabi.Props.C81_incremental` | Props/NppStream.lean | C Q P |
| `Sawatabi.Props.C81_partial_refuted` | Props/NppStream.lean | C Q P |

## C82: A model built by public calls is solved for its own objective (partial)

| Theorem | Module | Axioms |
|---|---|---|
| `Sawatabi.Props.C82_annealing` | Props/EndToEnd.lean | C Q P |
| `Sawatabi.Props.C82_exact` | Props/EndToEnd.lean | C Q P |
| `Sawatabi.Props.C82_annealing_ising_partial` | Props/IsingSolve.lean | C Q P |
| `Sawatabi.Props.C82_exact_ising_partial` | Props/IsingSolve.lean | C Q P |
| `Sawatabi.Props.C82_ragged_refuted` | Props/Ragged.lean | C Q P |

## C83: Strong constraints are satisfied by every optimal sample (partial)

| Theorem | Module | Axioms |
|---|---|---|
| `Sawatabi.Props.C83_ising_minimisers` | Props/IsingSolve.lean | C Q P |
| `Sawatabi.Props.C83_ising_exact` | Props/IsingSolve.lean | C Q P |
| `Sawatabi.Props.C83_minimisers` | Props/Penalty.lean | C Q P |
| `Sawatabi.Props.C83_exact` | Props/Penalty.lean | C Q P |
| `Sawatabi.Props.C83_ragged_refuted` | Props/Ragged.lean | C Q P |

## C84: The columns of the interaction table stay in step (proved)

| Theorem | Module | Axioms |
|---|---|---|
| `Sawatabi.Props.C84_columns_aligned` | Props/Columns.lean | C Q P |
| `Sawatabi.Props.C84_rows` | Props/Columns.lean | C Q P |
| `Sawatabi.Props.C84_call` | Props/Columns.lean | C Q P |
| `Sawatabi.Props.C84_toPhysical` | Props/Columns.lean | C Q P |
| `Sawatabi.Props.C84_merge` | Props/Columns.lean | C Q P |

## C85: Invalid interaction arguments are rejected, each with its exception (partial)

| Theorem | Module | Axioms |
|---|---|---|
| `Sawatabi.Props.C85_add_partial` | Props/Acceptance.lean | C Q P |
| `Sawatabi.Props.C85_remove` | Props/Acceptance.lean | C Q P |
| `Sawatabi.Props.C85_getAttributes` | Props/Acceptance.lean | C Q P |
| `Sawatabi.Props.C85_update_partial` | Props/Acceptance.lean | C Q P |
| `Sawatabi.Props.C85_update_made_partial` | Props/Acceptance.lean | C Q P |
| `Sawatabi.Props.C85_ragged_refuted` | Props/Acceptance.lean | C Q P |
| `Sawatabi.Props.C85_add_exact` | Props/RaggedCalls.lean | C Q P |
| `Sawatabi.Props.C85_update_exact` | Props/RaggedCalls.lean | C Q P |
| `Sawatabi.Props.C85_add_made` | Props/RaggedCalls.lean | C Q P |
| `Sawatabi.Props.C85_update_made` | Props/RaggedCalls.lean | C Q P |

## C86: The registries of a model follow the calls (partial)

| Theorem | Module | Axioms |
|---|---|---|
| `Sawatabi.Props.C86_constraints` | Props/Registry.lean | C Q P |
| `Sawatabi.Props.C86_remove_constraint` | Props/Registry.lean | Q |
| `Sawatabi.Props.C86_deleted` | Props/Registry.lean | C Q P |
| `Sawatabi.Props.C86_fixed` | Props/Registry.lean | C Q P |
| `Sawatabi.Props.C86_offset` | Props/Registry.lean | C Q P |
| `Sawatabi.Props.C86_variables_array` | Props/Registry.lean | C Q P |
| `Sawatabi.Props.C86_variables_array_raises` | Props/Registry.lean | C Q P |
| `Sawatabi.Props.C86_mixed_array_refuted` | Props/Registry.lean | C Q P |

## C87: Equal models behave alike (partial)

| Theorem | Module | Axioms |
|---|---|---|
| `Sawatabi.Props.C87_eq_iff` | Props/Equality.lean | C Q P |
| `Sawatabi.Props.C87_equivalence` | Props/Equality.lean | C Q P |
| `Sawatabi.Props.C87_constraint_sets` | Props/Equality.lean | Q P |
| `Sawatabi.Props.C87_calls` | Props/Equality.lean | C Q P |
| `Sawatabi.Props.C87_histories` | Props/Equality.lean | C Q P |
| `Sawatabi.Props.C87_global_partial` | Props/Equality.lean | C Q P |
| `Sawatabi.Props.C87_getters` | Props/Equality.lean | C Q P |
| `Sawatabi.Props.C87_physical_partial` | Props/Equality.lean | C Q P |
| `Sawatabi.Props.C87_physical_eq_iff` | Props/Equality.lean | C Q P |
| `Sawatabi.Props.C87_physical_eq` | Props/Equality.lean | C Q P |
| `Sawatabi.Props.C87_numbering_refuted` | Props/Equality.lean | C Q P |
| `Sawatabi.Props.C87_merge_refuted` | Props/Equality.lean | C Q P |
| `Sawatabi.Props.C87_raising_refuted` | Props/Equality.lean | C Q P |
| `Sawatabi.Props.C87_physical_contents_partial` | Props/EqualityPhysical.lean | C Q P |
| `Sawatabi.Props.C87_physical_calls_partial` | Props/EqualityPhysical.lean | C Q P |

## C88: The travelling salesperson application poses its problem (proved)

| Theorem | Module | Axioms |
|---|---|---|
| `Sawatabi.Props.C88_compilable` | Props/Tsp.lean | C Q P |
| `Sawatabi.Props.C88_mapping` | Props/Tsp.lean | C Q P |
| `Sawatabi.Props.C88_empty_window` | Props/Tsp.lean | C Q P |
| `Sawatabi.Props.C88_windows` | Props/Tsp.lean | C Q P |

## C89: The travelling salesperson application reports shortest tours (partial)

| Theorem | Module | Axioms |
|---|---|---|
| `Sawatabi.Props.C89_reading` | Props/Tsp.lean | C Q P |
| `Sawatabi.Props.C89_missing` | Props/Tsp.lean | C Q P |
| `Sawatabi.Props.C89_length` | Props/Tsp.lean | Q P |
| `Sawatabi.Props.C89_tour` | Props/Tsp.lean | C Q P |
| `Sawatabi.Props.C89_answers` | Props/Tsp.lean | C Q P |
| `Sawatabi.Props.C89_shortest_partial` | Props/Tsp.lean | C Q P |
| `Sawatabi.Props.C89_far_refuted` | Props/Tsp.lean | C Q P |

## C90: A model merged with itself is doubled (partial)

| Theorem | Module | Axioms |
|---|---|---|
| `Sawatabi.Props.C90_as_copy` | Props/World.lean | C Q P |
| `Sawatabi.Props.C90_energy` | Props/World.lean | C Q P |
| `Sawatabi.Props.C90_names` | Props/World.lean | C Q P |
| `Sawatabi.Props.C90_constraint_refuted` | Props/World.lean | C Q P |

## C91: Calls on one model do not change another (partial)

| Theorem | Module | Axioms |
|---|---|---|
| `Sawatabi.Props.C91_made` | Props/World.lean | C Q P |
| `Sawatabi.Props.C91_call` | Props/World.lean | C Q P |
| `Sawatabi.Props.C91_register` | Props/World.lean | C Q P |
| `Sawatabi.Props.C91_merge` | Props/World.lean | C Q P |
| `Sawatabi.Props.C91_frame` | Props/World.lean | C Q P |
| `Sawatabi.Props.C91_delete` | Props/World.lean | C Q P |
| `Sawatabi.Props.C91_apart` | Props/World.lean | C Q P |
| `Sawatabi.Props.C91_edit` | Props/World.lean | C Q P |
| `Sawatabi.Props.C91_sharing` | Props/World.lean | C Q P |
| `Sawatabi.Props.C91_independent_refuted` | Props/World.lean | C Q P |

## C92: The n-hot models written by hand are n-hot (proved)

| Theorem | Module | Axioms |
|---|---|---|
| `Sawatabi.Samples.C92_finds` | Props/Samples.lean | C Q P |
| `Sawatabi.Samples.C92_n_hot` | Props/Samples.lean | C Q P |

## C93: The n-hot models with the constraint class are n-hot (proved)

| Theorem | Module | Axioms |
|---|---|---|
| `Sawatabi.Samples.C93_finds` | Props/Samples.lean | C Q P |
| `Sawatabi.Samples.C93_succeeds_iff` | Props/Samples.lean | C Q P |
| `Sawatabi.Samples.C93_same_optima` | Props/Samples.lean | C Q P |

## C94: The models of the solver samples have the optima of their comments (proved)

| Theorem | Module | Axioms |
|---|---|---|
| `Sawatabi.Samples.C94_ising` | Props/Samples.lean | C Q P |
| `Sawatabi.Samples.C94_qubo` | Props/Samples.lean | C Q P |
| `Sawatabi.Samples.C94_one_body` | Props/Samples.lean | C Q P |
| `Sawatabi.Samples.C94_two_body` | Props/Samples.lean | C Q P |
| `Sawatabi.Samples.C94_square` | Props/Samples.lean | C Q P |

## C95: Attenuation weighs the numbers of the window by age (partial)

| Theorem | Module | Axioms |
|---|---|---|
| `Sawatabi.Props.C95_succeeds_iff` | Props/NppAttn.lean | C Q P |
| `Sawatabi.Props.C95_model` | Props/NppAttn.lean | C Q P |
| `Sawatabi.Props.C95_yields` | Props/NppAttn.lean | C Q P |
| `Sawatabi.Props.C95_unweighted` | Props/NppAttn.lean | C Q P |
| `Sawatabi.Props.C95_optimal_refuted` | Props/NppAttn.lean | C Q P |
| `Sawatabi.Props.C95_zero_scale_refuted` | Props/NppAttn.lean | C Q P |

## C96: The number partitioning pipeline partitions every window of its input (proved)

| Theorem | Module | Axioms |
|---|---|---|
| `Sawatabi.Props.C96_time` | Props/DeleteConstraints.lean | C Q P |
| `Sawatabi.Props.C96_windows` | Props/Pipeline.lean | C Q P |
| `Sawatabi.Props.C96_piece` | Props/Pipeline.lean | C Q P |
| `Sawatabi.Props.C96_input` | Props/Pipeline.lean | C Q P |
| `Sawatabi.Props.C96_window` | Props/Pipeline.lean | C Q P |
| `Sawatabi.Props.C96_incremental` | Props/Pipeline.lean | C Q P |

## C97: The attenuation pipeline gets through its input (partial)

| Theorem | Module | Axioms |
|---|---|---|
| `Sawatabi.Props.C97_succeeds_iff` | Props/Pipeline.lean | C Q P |
| `Sawatabi.Props.C97_sample_refuted` | Props/Pipeline.lean | C Q P |
| `Sawatabi.Props.C97_answers` | Props/Pipeline.lean | C Q P |

## C98: The travelling salesperson pipeline reports shortest tours (partial)

| Theorem | Module | Axioms |
|---|---|---|
| `Sawatabi.Props.C98_shortest_partial` | Props/Pipeline.lean | C Q P |
| `Sawatabi.Props.C98_answers` | Props/Pipeline.lean | C Q P |
| `Sawatabi.Props.C98_far_refuted` | Props/Pipeline.lean | C Q P |
| `Sawatabi.Props.C98_text_partial` | Props/TspPipelineText.lean | C Q P |

## C99: The annealing can return every state (partial)

| Theorem | Module | Axioms |
|---|---|---|
| `Sawatabi.Props.C99_random` | Props/SolverConnected.lean | C Q P |
| `Sawatabi.Props.C99_sequential_refuted` | Props/SolverConnected.lean | C Q P |
| `Sawatabi.Props.C99_follows_partial` | Props/SolverReach.lean | C Q P |
| `Sawatabi.Props.C99_drawn_partial` | Props/SolverReach.lean | C Q P |
| `Sawatabi.Props.C99_reachable` | Props/SolverReach.lean | C Q P |
| `Sawatabi.Props.C99_follows` | Props/SolverReach.lean | C Q P |
| `Sawatabi.Props.C99_every_state` | Props/SolverReach.lean | C Q P |
| `Sawatabi.Props.C99_optimum` | Props/SolverReach.lean | C Q P |
| `Sawatabi.Props.C99_connected` | Props/SolverReach.lean | C Q P |
| `Sawatabi.Props.C99_any_start_refuted` | Props/SolverReach.lean | C Q P |

## C100: Flips uphill are accepted with the Metropolis probability (proved)

| Theorem | Module | Axioms |
|---|---|---|
| `Sawatabi.Props.C100_share` | Props/SolverAccept.lean | C Q P |
| `Sawatabi.Props.C100_near` | Props/SolverAccept.lean | C Q P |
| `Sawatabi.Props.C100_monotone` | Props/SolverAccept.lean | C Q P |

## C101: What is written for a window (partial)

| Theorem | Module | Axioms |
|---|---|---|
| `Sawatabi.Props.C101_exact_partial` | Props/Output.lean | C Q P |
| `Sawatabi.Props.C101_fails` | Props/Output.lean | C Q P |
| `Sawatabi.Props.C101_stages` | Props/Output.lean | C Q P |
| `Sawatabi.Props.C101_lossless` | Props/Output.lean | C Q P |
| `Sawatabi.Props.C101_off_refuted` | Props/Output.lean | C Q P |
| `Sawatabi.Props.C101_none_refuted` | Props/Output.lean | C Q P |

## C102: The message about an outdated window names both times (partial)

| Theorem | Module | Axioms |
|---|---|---|
| `Sawatabi.Props.C102_text_partial` | Props/Output.lean | C Q P |
| `Sawatabi.Props.C102_refuted` | Props/Output.lean | C Q P |

## C103: The text of the number partitioning report can be read (proved)

| Theorem | Module | Axioms |
|---|---|---|
| `Sawatabi.Props.C103_readable` | Props/Output.lean | C Q P |
| `Sawatabi.Props.C103_written` | Props/Output.lean | C Q P |
| `Sawatabi.Props.C103_window` | Props/Output.lean | C Q P |
| `Sawatabi.Props.C103_incremental` | Props/Output.lean | C Q P |

## C104: The publisher sends numbers that are read back (proved)

| Theorem | Module | Axioms |
|---|---|---|
| `Sawatabi.Props.C104_stops` | Props/Output.lean | C Q P |
| `Sawatabi.Props.C104_endless` | Props/Output.lean | Q P |
| `Sawatabi.Props.C104_numbers` | Props/Output.lean | C Q P |

## C105: Models can be printed (partial)

| Theorem | Module | Axioms |
|---|---|---|
| `Sawatabi.Props.C105_prefix` | Props/Printing.lean | C Q P |
| `Sawatabi.Props.C105_one_line` | Props/Printing.lean | C Q P |
| `Sawatabi.Props.C105_prints_partial` | Props/Printing.lean | C Q P |
| `Sawatabi.Props.C105_made_partial` | Props/Printing.lean | C Q P |
| `Sawatabi.Props.C105_ragged_refuted` | Props/Printing.lean | C Q P |
| `Sawatabi.Props.C105_box_partial` | Props/Printing.lean | C Q P |
| `Sawatabi.Props.C105_shows` | Props/Printing.lean | C Q P |
| `Sawatabi.Props.C105_physical_box` | Props/Printing.lean | C Q P |
| `Sawatabi.Props.C105_repr` | Props/Printing.lean | C Q P |
| `Sawatabi.Props.C105_physical_repr_refuted` | Props/Printing.lean | C Q P |
| `Sawatabi.Props.C105_name_refuted` | Props/Printing.lean | C Q P |
| `Sawatabi.Props.C105_physical_lines` | Props/PrintingLines.lean | C Q P |
| `Sawatabi.Props.C105_lines_partial` | Props/PrintingLines.lean | C Q P |
| `Sawatabi.Props.C105_repr_shows` | Props/PrintingLines.lean | C Q P |
| `Sawatabi.Props.C105_physical_repr_shows` | Props/PrintingLines.lean | C Q P |

## C106: Checks of element types accept exactly good elements (proved)

| Theorem | Module | Axioms |
|---|---|---|
| `Sawatabi.Props.C106_all` | Props/Printing.lean | Q P |
| `Sawatabi.Props.C106_one` | Props/Printing.lean | Q P |
| `Sawatabi.Props.C106_article` | Props/Printing.lean | C Q P |

## C107: The clocks agree (proved)

| Theorem | Module | Axioms |
|---|---|---|
| `Sawatabi.Props.C107_units` | Props/Printing.lean | C Q P |
| `Sawatabi.Props.C107_whole` | Props/Printing.lean | C Q P |

## C108: Number partitioning with a filter keeps the pairs of numbers that were dropped between kept ones (proved)

| Theorem | Module | Axioms |
|---|---|---|
| `Sawatabi.Props.C108_model` | Props/NppFilter.lean | C Q P |
| `Sawatabi.Props.C108_model_exact` | Props/NppFilter.lean | C Q P |
| `Sawatabi.Props.C108_window` | Props/NppFilter.lean | Q P |
| `Sawatabi.Props.C108_when` | Props/NppFilter.lean | C Q P |
| `Sawatabi.Props.C108_answer` | Props/NppFilter.lean | C Q P |
| `Sawatabi.Props.C108_answer_when` | Props/NppFilter.lean | C Q P |

## C109: Rounding keeps the reported energies close to the true ones (proved)

| Theorem | Module | Axioms |
|---|---|---|
| `Sawatabi.Props.C109_energy_spins` | Props/Rounding.lean | C Q P |
| `Sawatabi.Props.C109_energy` | Props/Rounding.lean | C Q P |
| `Sawatabi.Props.C109_history` | Props/Rounding.lean | C Q P |
| `Sawatabi.Props.C109_decision` | Props/Rounding.lean | C Q P |
| `Sawatabi.Props.C109_exact` | Props/Rounding.lean | C Q P |
| `Sawatabi.Props.C109_nearest` | Props/Rounding.lean | C Q P |
| `Sawatabi.Props.C109_integers` | Props/Rounding.lean | C Q P |
| `Sawatabi.Props.C109_integers_refuted` | Props/Rounding.lean | C Q P |

## C110: Rounding keeps the physical model close to the logical one (proved)

| Theorem | Module | Axioms |
|---|---|---|
| `Sawatabi.Props.C110_outcome` | Props/RoundingPhysical.lean | C Q P |
| `Sawatabi.Props.C110_coefficients` | Props/RoundingPhysical.lean | C Q P |
| `Sawatabi.Props.C110_energy` | Props/RoundingPhysical.lean | C Q P |
| `Sawatabi.Props.C110_exact` | Props/RoundingPhysical.lean | C Q P |
| `Sawatabi.Props.C110_reported` | Props/RoundingPhysical.lean | C Q P |
| `Sawatabi.Props.C110_integers` | Props/RoundingPhysical.lean | C Q P |
| `Sawatabi.Props.C110_vanish_refuted` | Props/RoundingPhysical.lean | C Q P |
| `Sawatabi.Props.C110_appear_refuted` | Props/RoundingPhysical.lean | C Q P |

## C111: At a fixed temperature the annealing keeps the Boltzmann distribution (proved)

| Theorem | Module | Axioms |
|---|---|---|
| `Sawatabi.Props.C111_chain` | Props/SolverBoltzmann.lean | C Q P |
| `Sawatabi.Props.C111_keeps` | Props/SolverBoltzmann.lean | C Q P |
| `Sawatabi.Props.C111_annealing` | Props/SolverBoltzmann.lean | C Q P |
| `Sawatabi.Props.C111_total` | Props/SolverBoltzmann.lean | C Q P |

## C112: select_interaction returns the matching interactions (partial)

| Theorem | Module | Axioms |
|---|---|---|
| `Sawatabi.Props.C112_run` | Props/Getters.lean | C Q P |
| `Sawatabi.Props.C112_lines` | Props/Getters.lean | C Q P |
| `Sawatabi.Props.C112_formats` | Props/Getters.lean | C Q P |
| `Sawatabi.Props.C112_total` | Props/Getters.lean | Q P |
| `Sawatabi.Props.C112_made_partial` | Props/Getters.lean | C Q P |
| `Sawatabi.Props.C112_by_variable` | Props/Getters.lean | C Q P |
| `Sawatabi.Props.C112_body` | Props/Getters.lean | C Q P |
| `Sawatabi.Props.C112_name` | Props/Getters.lean | C Q P |
| `Sawatabi.Props.C112_ragged_refuted` | Props/Getters.lean | C Q P |

## C113: The getters return the alive variables (partial)

| Theorem | Module | Axioms |
|---|---|---|
| `Sawatabi.Props.C113_by_name` | Props/Getters.lean | C Q P |
| `Sawatabi.Props.C113_all` | Props/Getters.lean | C Q P |
| `Sawatabi.Props.C113_arrays` | Props/Getters.lean | C Q P |
| `Sawatabi.Props.C113_delete_fix` | Props/Getters.lean | C Q P |
| `Sawatabi.Props.C113_alive_refuted` | Props/Getters.lean | C Q P |

## C114: Number partitioning with equal timestamps (proved)

| Theorem | Module | Axioms |
|---|---|---|
| `Sawatabi.Props.C114_window` | Props/NppTies.lean | C Q P |
| `Sawatabi.Props.C114_incremental` | Props/NppTies.lean | C Q P |
| `Sawatabi.Props.C114_agrees` | Props/NppTies.lean | C Q P |
| `Sawatabi.Props.C114_answer` | Props/NppTies.lean | C Q P |
| `Sawatabi.Props.C114_answer_incremental` | Props/NppTies.lean | C Q P |
| `Sawatabi.Props.C114_gap` | Props/NppTies.lean | C Q P |
| `Sawatabi.Props.C114_optimal_refuted` | Props/NppTies.lean | C Q P |

## C115: Physical models written by hand (partial)

| Theorem | Module | Axioms |
|---|---|---|
| `Sawatabi.Props.C115_calls` | Props/PhysicalCalls.lean | Q P |
| `Sawatabi.Props.C115_new` | Props/PhysicalCalls.lean | Q P |
| `Sawatabi.Props.C115_raises` | Props/PhysicalCalls.lean | P |
| `Sawatabi.Props.C115_bqm` | Props/PhysicalCalls.lean | C Q P |
| `Sawatabi.Props.C115_loop` | Props/PhysicalCalls.lean | C Q P |
| `Sawatabi.Props.C115_refines` | Props/PhysicalCalls.lean | C Q P |
| `Sawatabi.Props.C115_exact` | Props/PhysicalCalls.lean | C Q P |
| `Sawatabi.Props.C115_unindexed_error` | Props/PhysicalCalls.lean | C Q P |
| `Sawatabi.Props.C115_unindexed_refuted` | Props/PhysicalCalls.lean | C Q P |
| `Sawatabi.Props.C115_extended` | Props/PhysicalCalls.lean | C Q P |
| `Sawatabi.Props.C115_extended_iff` | Props/PhysicalCalls.lean | C Q P |

## C116: Equal physical models are annealed alike (proved)

| Theorem | Module | Axioms |
|---|---|---|
| `Sawatabi.Props.C116_equal` | Props/SolveAlike.lean | C Q P |
| `Sawatabi.Props.C116_raises` | Props/SolveAlike.lean | C Q P |
| `Sawatabi.Props.C116_order` | Props/SolveAlike.lean | C Q P |

## C117: Rounding in the conversion of QUBO models to spins (proved)

| Theorem | Module | Axioms |
|---|---|---|
| `Sawatabi.Props.C117_conversion` | Props/RoundingSpin.lean | C Q P |
| `Sawatabi.Props.C117_ising` | Props/RoundingSpin.lean | C Q P |
| `Sawatabi.Props.C117_energy` | Props/RoundingSpin.lean | C Q P |
| `Sawatabi.Props.C117_reported` | Props/RoundingSpin.lean | C Q P |
| `Sawatabi.Props.C117_exact` | Props/RoundingSpin.lean | C Q P |
| `Sawatabi.Props.C117_integers` | Props/RoundingSpin.lean | C Q P |
| `Sawatabi.Props.C117_integers_refuted` | Props/RoundingSpin.lean | C Q P |

## C118: Number partitioning of any integers (proved)

| Theorem | Module | Axioms |
|---|---|---|
| `Sawatabi.Props.C118_nonnegative` | Props/NppInt.lean | C Q P |
| `Sawatabi.Props.C118_negative` | Props/NppInt.lean | C Q P |
| `Sawatabi.Props.C118_returns_iff` | Props/NppInt.lean | C Q P |
| `Sawatabi.Props.C118_optimal` | Props/NppInt.lean | C Q P |

## C119: Attenuation by a default column (proved)

| Theorem | Module | Axioms |
|---|---|---|
| `Sawatabi.Props.C119_interpolates` | Props/AttenuationDefault.lean | C Q P |
| `Sawatabi.Props.C119_raises` | Props/AttenuationDefault.lean | C Q P |
| `Sawatabi.Props.C119_timestamp_iff` | Props/AttenuationDefault.lean | C Q P |
| `Sawatabi.Props.C119_dirty` | Props/AttenuationDefault.lean | C Q P |
| `Sawatabi.Props.C119_keys` | Props/AttenuationDefault.lean | C Q P |
| `Sawatabi.Props.C119_other` | Props/AttenuationDefault.lean | C Q P |

## C120: Constraints have their own variables (partial)

| Theorem | Module | Axioms |
|---|---|---|
| `Sawatabi.Props.C120_valid` | Props/SetObjects.lean | C Q P |
| `Sawatabi.Props.C120_library` | Props/SetObjects.lean | C Q P |
| `Sawatabi.Props.C120_edit_fresh` | Props/SetObjects.lean | C Q P |
| `Sawatabi.Props.C120_mutate_iff` | Props/SetObjects.lean | Q P |
| `Sawatabi.Props.C120_kept` | Props/SetObjects.lean | Q P |
| `Sawatabi.Props.C120_careful` | Props/SetObjects.lean | C Q P |
| `Sawatabi.Props.C120_alias_refuted` | Props/SetObjects.lean | Q P |

## C121: Profiling changes nothing, and the random model is complete (proved)

| Theorem | Module | Axioms |
|---|---|---|
| `Sawatabi.Profile.C121_transparent` | Props/Profile.lean | C Q P |
| `Sawatabi.Profile.C121_time` | Props/Profile.lean | C Q P |
| `Sawatabi.Profile.C121_nested` | Props/Profile.lean | C Q P |
| `Sawatabi.Profile.C121_random` | Props/Profile.lean | C Q P |
| `Sawatabi.Profile.C121_raises` | Props/Profile.lean | C Q P |
| `Sawatabi.Profile.C121_seed` | Props/Profile.lean | C Q P |
| `Sawatabi.Profile.C121_physical` | Props/Profile.lean | C Q P |
| `Sawatabi.Profile.C121_profiled` | Props/Profile.lean | C Q P |

## C122: The text of the travelling salesperson sample (partial)

| Theorem | Module | Axioms |
|---|---|---|
| `Sawatabi.Props.C122_lines` | Props/TspText.lean | C Q P |
| `Sawatabi.Props.C122_readable_partial` | Props/TspText.lean | C Q P |
| `Sawatabi.Props.C122_tour` | Props/TspText.lean | C Q P |
| `Sawatabi.Props.C122_arrow_refuted` | Props/TspText.lean | C Q P |

## C123: Long runs at a fixed temperature forget the initial state (partial)

| Theorem | Module | Axioms |
|---|---|---|
| `Sawatabi.Props.C123_forgets` | Props/SolverMixing.lean | C Q P |
| `Sawatabi.Props.C123_boltzmann` | Props/SolverMixing.lean | C Q P |
| `Sawatabi.Props.C123_sequential_refuted` | Props/SolverMixing.lean | C Q P |

## C124: The text of a constraint tells which constraint it is (partial)

| Theorem | Module | Axioms |
|---|---|---|
| `Sawatabi.Props.C124_readable_partial` | Props/ConstraintText.lean | C Q P |
| `Sawatabi.Props.C124_repr_partial` | Props/ConstraintText.lean | C Q P |
| `Sawatabi.Props.C124_equal_partial` | Props/ConstraintText.lean | C Q P |
| `Sawatabi.Props.C124_ne` | Props/ConstraintText.lean | Q P |
| `Sawatabi.Props.C124_paren_refuted` | Props/ConstraintText.lean | C Q P |
| `Sawatabi.Props.C124_order_refuted` | Props/ConstraintText.lean | C Q P |

## C125: The printed table of number partitioning (proved)

| Theorem | Module | Axioms |
|---|---|---|
| `Sawatabi.Props.C125_readable` | Props/NppText.lean | C Q P |
| `Sawatabi.Props.C125_readable_all` | Props/NppText.lean | C Q P |
| `Sawatabi.Props.C125_answer` | Props/NppText.lean | C Q P |
| `Sawatabi.Props.C125_table` | Props/NppText.lean | C Q P |
| `Sawatabi.Props.C125_table_all` | Props/NppText.lean | C Q P |
| `Sawatabi.Props.C125_aligned` | Props/NppText.lean | C Q P |

## C126: Constraints in floating point (proved)

| Theorem | Module | Axioms |
|---|---|---|
| `Sawatabi.Props.C126_outcome` | Props/RoundingConstraint.lean | C Q P |
| `Sawatabi.Props.C126_energy` | Props/RoundingConstraint.lean | C Q P |
| `Sawatabi.Props.C126_exact` | Props/RoundingConstraint.lean | C Q P |
| `Sawatabi.Props.C126_reported` | Props/RoundingConstraint.lean | C Q P |
| `Sawatabi.Props.C126_integers` | Props/RoundingConstraint.lean | C Q P |
| `Sawatabi.Props.C126_feasible` | Props/RoundingConstraint.lean | C Q P |
| `Sawatabi.Props.C126_feasible_refuted` | Props/RoundingConstraint.lean | C Q P |

## C127: Repeated answers of Optigan are counted (partial)

| Theorem | Module | Axioms |
|---|---|---|
| `Sawatabi.Props.C127_exact` | Props/Aggregate.lean | C Q P |
| `Sawatabi.Props.C127_lossless_iff` | Props/Aggregate.lean | C Q P |
| `Sawatabi.Props.C127_lost_refuted` | Props/Aggregate.lean | Q P |
| `Sawatabi.Props.C127_optigan` | Props/Aggregate.lean | C Q P |
| `Sawatabi.Props.C127_vectors` | Props/Aggregate.lean | C Q P |
| `Sawatabi.Props.C127_vectors_refuted` | Props/Aggregate.lean | C Q P |
| `Sawatabi.Props.C127_made_partial` | Props/Aggregate.lean | C Q P |
| `Sawatabi.Props.C127_distinct_iff` | Props/AggregateExact.lean | Q P |

## C128: Options of a pipeline are checked when it is created (partial)

| Theorem | Module | Axioms |
|---|---|---|
| `Sawatabi.Props.C128_created_iff` | Props/Options.lean | C Q P |
| `Sawatabi.Props.C128_raises` | Props/Options.lean | C Q P |
| `Sawatabi.Props.C128_complete` | Props/Options.lean | C Q P |
| `Sawatabi.Props.C128_frame` | Props/Options.lean | C Q P |
| `Sawatabi.Props.C128_filter_refuted` | Props/Options.lean | C Q P |
| `Sawatabi.Props.C128_attenuation_refuted` | Props/Options.lean | C Q P |

## C129: Requests to Optigan say what the model and the caller say (proved)

| Theorem | Module | Axioms |
|---|---|---|
| `Sawatabi.Props.C129_text` | Props/JsonText.lean | C Q P |
| `Sawatabi.Props.C129_ascii` | Props/JsonText.lean | C Q P |
| `Sawatabi.Props.C129_sent` | Props/OptiganHttp.lean | C Q P |
| `Sawatabi.Props.C129_sent_iff` | Props/OptiganHttp.lean | C Q P |
| `Sawatabi.Props.C129_no_access` | Props/OptiganHttp.lean | C Q P |
| `Sawatabi.Props.C129_compression` | Props/OptiganHttp.lean | C Q P |
| `Sawatabi.Props.C129_refines` | Props/OptiganHttp.lean | C Q P |
| `Sawatabi.Props.C129_given_refuted` | Props/OptiganHttp.lean | C Q P |

## C130: Optigan answers for the objective of the logical model (proved)

| Theorem | Module | Axioms |
|---|---|---|
| `Sawatabi.Props.C130_optigan` | Props/OptiganEndToEnd.lean | C Q P |
| `Sawatabi.Props.C130_best` | Props/OptiganEndToEnd.lean | C Q P |
| `Sawatabi.Props.C130_strong` | Props/OptiganEndToEnd.lean | C Q P |

## C131: Samplers are asked about the model of the caller, and their answers are about its objective (proved)

| Theorem | Module | Axioms |
|---|---|---|
| `Sawatabi.Props.C131_access` | Props/SamplersEndToEnd.lean | P |
| `Sawatabi.Props.C131_given_refuted` | Props/SamplersEndToEnd.lean | P |
| `Sawatabi.Props.C131_connect_fails` | Props/SamplersEndToEnd.lean | P |
| `Sawatabi.Props.C131_sent` | Props/SamplersEndToEnd.lean | C Q P |
| `Sawatabi.Props.C131_dwave` | Props/SamplersEndToEnd.lean | C Q P |
| `Sawatabi.Props.C131_dwave_best` | Props/SamplersEndToEnd.lean | C Q P |
| `Sawatabi.Props.C131_local` | Props/SamplersEndToEnd.lean | C Q P |
| `Sawatabi.Props.C131_local_best` | Props/SamplersEndToEnd.lean | C Q P |

## C132: Converting and solving a model succeeds when it should, and gives all optima (proved)

| Theorem | Module | Axioms |
|---|---|---|
| `Sawatabi.Props.C132_empty_iff` | Props/Whole.lean | C Q P |
| `Sawatabi.Props.C132_succeeds_iff` | Props/Whole.lean | C Q P |
| `Sawatabi.Props.C132_succeeds_exact` | Props/Whole.lean | C Q P |
| `Sawatabi.Props.C132_optima` | Props/Whole.lean | C Q P |
| `Sawatabi.Props.C132_optigan` | Props/Whole.lean | C Q P |
| `Sawatabi.Props.C132_annealing` | Props/Whole.lean | C Q P |
| `Sawatabi.Props.C132_feasible` | Props/Whole.lean | C Q P |

## C133: Warnings are given exactly when a call does something else than it says (partial)

| Theorem | Module | Axioms |
|---|---|---|
| `Sawatabi.Props.C133_append` | Props/Warnings.lean | C Q P |
| `Sawatabi.Props.C133_update` | Props/Warnings.lean | C Q P |
| `Sawatabi.Props.C133_update_other` | Props/Warnings.lean | C Q P |
| `Sawatabi.Props.C133_fix_exact` | Props/Warnings.lean | C Q P |
| `Sawatabi.Props.C133_fix_other` | Props/Warnings.lean | C Q P |
| `Sawatabi.Props.C133_to_ising` | Props/Warnings.lean | C Q P |
| `Sawatabi.Props.C133_to_qubo` | Props/Warnings.lean | C Q P |
| `Sawatabi.Props.C133_merge` | Props/Warnings.lean | C Q P |
| `Sawatabi.Props.C133_to_physical` | Props/Warnings.lean | C Q P |
| `Sawatabi.Props.C133_fix_refuted` | Props/Warnings.lean | C Q P |

## C134: What is written to Pub/Sub can be read from there (proved)

| Theorem | Module | Axioms |
|---|---|---|
| `Sawatabi.Props.C134_names` | Props/PubSub.lean | C Q P |
| `Sawatabi.Props.C134_topic` | Props/PubSub.lean | C Q P |
| `Sawatabi.Props.C134_subscription` | Props/PubSub.lean | C Q P |
| `Sawatabi.Props.C134_neither` | Props/PubSub.lean | C Q P |
| `Sawatabi.Props.C134_numbers` | Props/PubSub.lean | C Q P |
| `Sawatabi.Props.C134_publisher` | Props/PubSub.lean | C Q P |
| `Sawatabi.Props.C134_not_text` | Props/PubSub.lean | C Q P |

## C135: Cities sent by Pub/Sub arrive as they were drawn, and the subscriber shows what was sent (proved)

| Theorem | Module | Axioms |
|---|---|---|
| `Sawatabi.Props.C135_name` | Props/PubSubCity.lean | Q P |
| `Sawatabi.Props.C135_message` | Props/PubSubCity.lean | C Q P |
| `Sawatabi.Props.C135_distinct` | Props/PubSubCity.lean | C Q P |
| `Sawatabi.Props.C135_cities` | Props/PubSubCity.lean | C Q P |
| `Sawatabi.Props.C135_no_json` | Props/PubSubCity.lean | C Q P |
| `Sawatabi.Props.C135_shown` | Props/PubSubCity.lean | C Q P |

## C136: A reader of numbers takes exactly the numbers from the messages of the publisher (proved)

| Theorem | Module | Axioms |
|---|---|---|
| `Sawatabi.Props.C136_numbers` | Props/PublisherText.lean | C Q P |
| `Sawatabi.Props.C136_texts` | Props/PublisherText.lean | C Q P |
