{
 "claims": [
  {
   "property": "C01",
   "status": "partial",
   "theorems": [
    "Sawatabi.Props.C01_names_unique_partial",
    "Sawatabi.Props.C01_merge_refuted",
    "Sawatabi.Props.C01_merge_iff",
    "Sawatabi.Props.C01_failed_refuted",
    "Sawatabi.Props.C01_made_partial"
   ],
   "note": "Proved for all histories of calls (also raising ones) without merge and without a raising to_physical on a model with constraints. False with merge (C01_merge_refuted) and after several raising to_physical (C01_failed_refuted); C01_merge_iff says exactly which successful merges keep names unique, and C01_made_partial covers all histories with such merges."
  },
  {
   "property": "C02",
   "status": "proved",
   "theorems": [
    "Sawatabi.Props.C02_add_energy",
    "Sawatabi.Props.C02_add_frame",
    "Sawatabi.Props.C02_add_succeeds_iff"
   ],
   "note": "Energy, frame, and exactly when the call succeeds."
  },
  {
   "property": "C03",
   "status": "partial",
   "theorems": [
    "Sawatabi.Props.C03_remove_atomic",
    "Sawatabi.Props.C03_add_atomic_partial",
    "Sawatabi.Props.C03_update_atomic_partial",
    "Sawatabi.Props.C03_add_atomic_refuted",
    "Sawatabi.Props.C03_update_atomic_refuted"
   ],
   "note": "remove: proved. add and update: atomic on rectangular tables, so for histories whose updates name registered attribute keys; false on ragged tables (C03_add_atomic_refuted, C03_update_atomic_refuted). For every table it is proved which calls with acceptable arguments raise, and what they leave (C85_add_exact, C85_update_exact)."
  },
  {
   "property": "C04",
   "status": "proved",
   "theorems": [
    "Sawatabi.Props.C04_add_swap",
    "Sawatabi.Props.C04_update_swap",
    "Sawatabi.Props.C04_remove_swap",
    "Sawatabi.Props.C04_getAttributes_swap",
    "Sawatabi.Props.C04_degenerate_rejected"
   ],
   "note": "For add, update, remove and get_attributes; degenerate pairs are always rejected."
  },
  {
   "property": "C05",
   "status": "proved",
   "theorems": [
    "Sawatabi.Props.C05_update_frame",
    "Sawatabi.Props.C05_update_attributes"
   ],
   "note": "Frame of update for the interaction table and for the attribute columns."
  },
  {
   "property": "C06",
   "status": "partial",
   "theorems": [
    "Sawatabi.Props.C06_update_absent_target_partial",
    "Sawatabi.Props.C06_update_absent_name",
    "Sawatabi.Props.C06_update_absent_refuted"
   ],
   "note": "Proved without attributes. With attributes it is false: they are dropped (C06_update_absent_refuted)."
  },
  {
   "property": "C07",
   "status": "partial",
   "theorems": [
    "Sawatabi.Props.C07_remove_marks",
    "Sawatabi.Props.C07_removed_stays",
    "Sawatabi.Props.C07_removed_not_added",
    "Sawatabi.Props.C07_removed_not_updated",
    "Sawatabi.Props.C07_remove_again",
    "Sawatabi.Props.C07_readd_partial",
    "Sawatabi.Props.C07_made_partial",
    "Sawatabi.Props.C07_readd_refuted",
    "Sawatabi.Props.C07_readd_exact"
   ],
   "note": "Marking, persistence, no add, no update, remove again: proved. After a conversion: proved if no removed interaction has a name ending with a parenthesis, as constraints generate; false otherwise (C07_readd_refuted). C07_readd_exact says exactly which removed names are free after any conversion."
  },
  {
   "property": "C08",
   "status": "partial",
   "theorems": [
    "Sawatabi.Props.C08_rect_partial",
    "Sawatabi.Props.C08_rect_frame",
    "Sawatabi.Props.C08_rect_refuted"
   ],
   "note": "Proved for histories whose updates use registered attribute keys; false otherwise (C08_rect_refuted)."
  },
  {
   "property": "C09",
   "status": "partial",
   "theorems": [
    "Sawatabi.Props.C09_add_then_get",
    "Sawatabi.Props.C09_add_others",
    "Sawatabi.Props.C09_update_then_get_partial",
    "Sawatabi.Props.C09_update_others_partial",
    "Sawatabi.Props.C09_remove_keeps",
    "Sawatabi.Props.C09_update_new_key_refuted",
    "Sawatabi.Props.C09_update_exact",
    "Sawatabi.Props.C09_update_iff",
    "Sawatabi.Props.C09_update_others"
   ],
   "note": "Proved for add, and for update with registered keys; false for an update with a new key (C09_update_new_key_refuted). C09_update_exact says for every table when the value given is read back (C09_update_iff: on rectangular tables exactly if the key is registered), and C09_update_others that what is read for other interactions stays as it is."
  },
  {
   "property": "C10",
   "status": "partial",
   "theorems": [
    "Sawatabi.Props.C10_explicit_timestamp_partial",
    "Sawatabi.Props.C10_default_is_import_time",
    "Sawatabi.Props.C10_default_timestamp_refuted"
   ],
   "note": "Explicit timestamps are stored; the default is the import time, so the property is false (C10_default_timestamp_refuted)."
  },
  {
   "property": "C11",
   "status": "partial",
   "theorems": [
    "Sawatabi.Props.C11_constraints",
    "Sawatabi.Props.C11_objective_partial",
    "Sawatabi.Props.C11_made_objective_partial",
    "Sawatabi.Props.C11_physical_partial",
    "Sawatabi.Props.C11_physical_ising_partial",
    "Sawatabi.Props.C11_delete_exact",
    "Sawatabi.Props.C11_delete_clean_iff",
    "Sawatabi.Props.C11_delete_energy_partial",
    "Sawatabi.Props.C11_delete_independent_partial",
    "Sawatabi.Props.C11_delete_rows_partial",
    "Sawatabi.Props.C11_delete_duplicate_refuted",
    "Sawatabi.Props.C11_made_partial"
   ],
   "note": "Proved for models with distinct interaction names, so for all histories whose merges keep names distinct (C11_made_partial). False for duplicate names, which merge can produce (C11_delete_duplicate_refuted). C11_delete_exact says for every model what a deletion marks: for each interaction on the variable the first one with its name; C11_delete_clean_iff says when that leaves no active interaction on the variable. C11_constraints: the constraints that contain the variable are left with it set to 0 too (C11_objective_partial and C11_made_objective_partial for the sum with the interactions; C11_physical_partial and C11_physical_ising_partial up to the physical model; in an Ising model the penalties then have the spin at -1 while the interactions have it at 0)."
  },
  {
   "property": "C12",
   "status": "partial",
   "theorems": [
    "Sawatabi.Props.C12_delete_iff",
    "Sawatabi.Props.C12_delete_succeeds_partial",
    "Sawatabi.Props.C12_delete_refuted",
    "Sawatabi.Props.C12_delete_equality_refuted",
    "Sawatabi.Props.C12_left",
    "Sawatabi.Props.C12_retry"
   ],
   "note": "C12_delete_iff characterises success exactly. The property itself is false: C12_delete_refuted, C12_delete_equality_refuted. C12_left says exactly what a deletion that raises leaves: the rows and the variable are gone, the constraints before the refusing one have let go of it, the others have not been reached; C12_retry says that repeating the call raises the same error and changes nothing more."
  },
  {
   "property": "C13",
   "status": "partial",
   "theorems": [
    "Sawatabi.Props.C13_fix_exact",
    "Sawatabi.Props.C13_fix_energy_partial",
    "Sawatabi.Props.C13_fix_zero",
    "Sawatabi.Props.C13_fix_independent",
    "Sawatabi.Props.C13_fix_reachable_partial",
    "Sawatabi.Props.C13_fix_removed_refuted",
    "Sawatabi.Props.C13_made"
   ],
   "note": "Proved when no removed interaction touches the variable; false otherwise (C13_fix_removed_refuted). C13_fix_exact gives the energy in all cases: removed interactions on the variable count again. Independence of the variable is proved without the restriction."
  },
  {
   "property": "C14",
   "status": "partial",
   "theorems": [
    "Sawatabi.Props.C14_exact_qubo",
    "Sawatabi.Props.C14_exact_ising",
    "Sawatabi.Props.C14_depends",
    "Sawatabi.Props.C14_fixed_gone_partial",
    "Sawatabi.Props.C14_constraint_refuted",
    "Sawatabi.Props.C14_made_partial"
   ],
   "note": "Proved for variables that are in no constraint. With a constraint on the variable it is false (C14_constraint_refuted): C14_exact_qubo and C14_exact_ising give the physical model then, and C14_depends says that it depends on the variable exactly as the penalties do."
  },
  {
   "property": "C15",
   "status": "partial",
   "theorems": [
    "Sawatabi.Props.C15_fix_rejects",
    "Sawatabi.Props.C15_fix_ok_admissible",
    "Sawatabi.Props.C15_fix_accepts_partial",
    "Sawatabi.Props.C15_fix_iff",
    "Sawatabi.Props.C15_fix_again_refuted",
    "Sawatabi.Props.C15_left",
    "Sawatabi.Props.C15_retry"
   ],
   "note": "Rejection is proved. C15_fix_iff says exactly when an admissible value is accepted: if it is 0 or the replacement names are free; otherwise not (C15_fix_again_refuted). C15_left says exactly what a fix that raises half way leaves, and C15_retry what repeating it does."
  },
  {
   "property": "C16",
   "status": "partial",
   "theorems": [
    "Sawatabi.Props.C16_exact",
    "Sawatabi.Props.C16_size_iff",
    "Sawatabi.Props.C16_size_partial",
    "Sawatabi.Props.C16_size_along_history_partial",
    "Sawatabi.Props.C16_delete_fix_refuted",
    "Sawatabi.Props.C16_delete_unknown_refuted",
    "Sawatabi.Props.C16_recreate_refuted"
   ],
   "note": "C16_exact gives the returned number for every history that registers arrays by name and shape, if labels are distinct, and C16_size_iff says when it is right: no variable both deleted and fixed, and only variables of the model. False otherwise: C16_delete_fix_refuted, C16_delete_unknown_refuted, C16_recreate_refuted."
  },
  {
   "property": "C17",
   "status": "partial",
   "theorems": [
    "Sawatabi.Props.C17_append_unknown",
    "Sawatabi.Props.C17_append_exact",
    "Sawatabi.Props.C17_append_shape",
    "Sawatabi.Props.C17_append_iff",
    "Sawatabi.Props.C17_append_keeps",
    "Sawatabi.Props.C17_append_rank",
    "Sawatabi.Props.C17_append_rank_refuted"
   ],
   "note": "Proved for tuples of the rank of the array. For a tuple of any rank C17_append_exact says what the array becomes, and C17_append_iff and C17_append_rank when nothing is lost. A shorter tuple silently reduces the rank and drops all variables (C17_append_rank_refuted)."
  },
  {
   "property": "C18",
   "status": "proved",
   "theorems": [
    "Sawatabi.Props.C18_made",
    "Sawatabi.Props.C18_variables_iff",
    "Sawatabi.Props.C18_variables",
    "Sawatabi.Props.C18_variables_failed",
    "Sawatabi.Props.C18_arrays_along_history",
    "Sawatabi.Props.C18_all_size",
    "Sawatabi.Props.C18_labels_clash_refuted"
   ],
   "note": "For every array created by name and shape and for every history that registers arrays that way. Labels are also distinct across arrays if no name contains a bracket (refuted otherwise: C18_labels_clash_refuted)."
  },
  {
   "property": "C19",
   "status": "partial",
   "theorems": [
    "Sawatabi.Props.C19_made_partial",
    "Sawatabi.Props.C19_energy_partial",
    "Sawatabi.Props.C19_energy_prefix",
    "Sawatabi.Props.C19_succeeds_partial",
    "Sawatabi.Props.C19_ragged_refuted"
   ],
   "note": "Energy and exact success condition for rectangular tables, hence for all models made by public calls whose updates name registered attribute keys (C19_made_partial). False for ragged tables (C19_ragged_refuted)."
  },
  {
   "property": "C20",
   "status": "partial",
   "theorems": [
    "Sawatabi.Props.C20_qubo_energy_partial",
    "Sawatabi.Props.C20_success_exact",
    "Sawatabi.Props.C20_succeeds_partial",
    "Sawatabi.Props.C20_success_iff",
    "Sawatabi.Props.C20_made_partial"
   ],
   "note": "Energy for all QUBO models with constraints over distinct variables. C20_success_iff: success exactly if equality sets are disjoint and all placeholders are given (labels without `*`, no removed interaction with a name ending with a parenthesis). C20_success_exact says when a QUBO model converts for all labels and names."
  },
  {
   "property": "C21",
   "status": "partial",
   "theorems": [
    "Sawatabi.Props.C21_ising_energy_partial",
    "Sawatabi.Props.C21_ising_gap_partial",
    "Sawatabi.Props.C21_exact_refuted",
    "Sawatabi.Props.C21_success_iff",
    "Sawatabi.Props.C21_drift_partial",
    "Sawatabi.Props.C21_made_iff",
    "Sawatabi.Props.C21_made_partial"
   ],
   "note": "False: a constant is added (C21_exact_refuted). C21_drift_partial gives the constant exactly (minus twice the average penalty), so energy differences are right. C21_success_iff: when the conversion succeeds, for labels without spaces."
  },
  {
   "property": "C22",
   "status": "partial",
   "theorems": [
    "Sawatabi.Props.C22_exact",
    "Sawatabi.Props.C22_only_prunes_iff",
    "Sawatabi.Props.C22_only_prunes_partial",
    "Sawatabi.Props.C22_again_partial",
    "Sawatabi.Props.C22_again_qubo_partial",
    "Sawatabi.Props.C22_clash_refuted",
    "Sawatabi.Props.C22_again_succeeds_partial",
    "Sawatabi.Props.C22_made_partial",
    "Sawatabi.Props.C22_made_exact"
   ],
   "note": "Proved for rectangular tables with distinct names, if no removed interaction has a name ending with a parenthesis, as constraints generate; false otherwise (C22_clash_refuted). C22_exact says exactly when the conversion succeeds and what it leaves, for every rectangular table with distinct names; C22_only_prunes_iff says when that is exactly the cleaned model."
  },
  {
   "property": "C23",
   "status": "partial",
   "theorems": [
    "Sawatabi.Props.C23_left_qubo_partial",
    "Sawatabi.Props.C23_retry_qubo_partial",
    "Sawatabi.Props.C23_left_ising_partial",
    "Sawatabi.Props.C23_retry_ising_partial",
    "Sawatabi.Props.C23_harmless_iff",
    "Sawatabi.Props.C23_unchanged_partial",
    "Sawatabi.Props.C23_frame",
    "Sawatabi.Props.C23_retry_refuted",
    "Sawatabi.Props.C23_made_partial"
   ],
   "note": "Proved for rectangular tables without constraints; variables, constraints, type and the sets of deleted and fixed variables survive in general. False with constraints (C23_retry_refuted): C23_left_qubo_partial and C23_left_ising_partial say exactly what is left, namely the interactions of the constraints before the one where the call stopped, whose penalties then count twice (C23_retry_qubo_partial, C23_retry_ising_partial)."
  },
  {
   "property": "C24",
   "status": "partial",
   "theorems": [
    "Sawatabi.Props.C24_numbering_partial",
    "Sawatabi.Props.C24_bijection_partial",
    "Sawatabi.Props.C24_reachable_partial",
    "Sawatabi.Props.C24_exact",
    "Sawatabi.Props.C24_inverse_iff",
    "Sawatabi.Props.C24_clash_refuted",
    "Sawatabi.Props.C24_made_partial"
   ],
   "note": "Proved if the labels of all variables are distinct (C18); false otherwise (C24_clash_refuted). C24_exact gives both maps in all cases, C24_inverse_iff says exactly when they are inverse to each other."
  },
  {
   "property": "C25",
   "status": "partial",
   "theorems": [
    "Sawatabi.Props.C25_made_partial",
    "Sawatabi.Props.C25_index_iff",
    "Sawatabi.Props.C25_polynomial_iff",
    "Sawatabi.Props.C25_polynomial_constraints_partial",
    "Sawatabi.Props.C25_polynomial_partial",
    "Sawatabi.Props.C25_unregistered_refuted",
    "Sawatabi.Props.C25_deleted_refuted",
    "Sawatabi.Props.C25_fix_refuted"
   ],
   "note": "Exact characterisation proved, with constraints as well (C25_polynomial_constraints_partial). C25_made_partial: it holds for every model made by calls that mention only variables which the model has and which were not deleted (all calls but registering a foreign array, returning or raising). The property itself is false: C25_unregistered_refuted, C25_deleted_refuted, C25_fix_refuted."
  },
  {
   "property": "C26",
   "status": "partial",
   "theorems": [
    "Sawatabi.Props.C26_depends",
    "Sawatabi.Props.C26_made",
    "Sawatabi.Props.C26_made_sums_partial",
    "Sawatabi.Props.C26_no_duplicates",
    "Sawatabi.Props.C26_sums_partial",
    "Sawatabi.Props.C26_sums_exact",
    "Sawatabi.Props.C26_ragged_refuted",
    "Sawatabi.Props.C26_constraints_partial",
    "Sawatabi.Props.C26_qubo_partial"
   ],
   "note": "Uniqueness and non-zero coefficients for all models made by public calls (C26_made). Sums: for rectangular tables, with constraints as well, hence for histories whose updates name registered keys (C26_made_sums_partial); exact for every table in C26_sums_exact, which shows the property false for ragged ones (C26_ragged_refuted)."
  },
  {
   "property": "C27",
   "status": "partial",
   "theorems": [
    "Sawatabi.Props.C27_success_constraints_partial",
    "Sawatabi.Props.C27_order_partial",
    "Sawatabi.Props.C27_success_partial",
    "Sawatabi.Props.C27_ragged_refuted",
    "Sawatabi.Props.C27_made_partial"
   ],
   "note": "Proved for rectangular tables of well-formed interactions, hence for all histories whose updates name registered attribute keys (C27_made_partial), with constraints as well. Success does not depend on the order either, with constraints if in Ising models no constraint label has a space. For ragged tables the order matters (C27_ragged_refuted)."
  },
  {
   "property": "C28",
   "status": "proved",
   "theorems": [
    "Sawatabi.Props.C28_bqm_energy",
    "Sawatabi.Props.C28_bqm_energy_positive"
   ],
   "note": "For both signs and all assignments."
  },
  {
   "property": "C29",
   "status": "proved",
   "theorems": [
    "Sawatabi.Props.C29_polynomial_energy",
    "Sawatabi.Props.C29_decode",
    "Sawatabi.Props.C29_roundtrip"
   ],
   "note": "Energy whenever to_polynomial succeeds (C25 says when), decoding for every conversion, also when two variables have the same label."
  },
  {
   "property": "C30",
   "status": "proved",
   "theorems": [
    "Sawatabi.Props.C30_nHot_energy",
    "Sawatabi.Props.C30_nHot_minimisers"
   ],
   "note": "Energy and minimisers, for sets of binary variables whose labels contain no star (pyqubo forbids it)."
  },
  {
   "property": "C31",
   "status": "proved",
   "theorems": [
    "Sawatabi.Props.C31_zeroOrOneHot_energy",
    "Sawatabi.Props.C31_zeroOrOneHot_minimisers"
   ],
   "note": "Energy and minimisers, for sets of binary variables whose labels contain no star (pyqubo forbids it)."
  },
  {
   "property": "C32",
   "status": "partial",
   "theorems": [
    "Sawatabi.Props.C32_equality_energy_partial",
    "Sawatabi.Props.C32_equality_minimisers_partial",
    "Sawatabi.Props.C32_overlap_raises_partial",
    "Sawatabi.Props.C32_equality_refuted"
   ],
   "note": "Energy and minimisers for disjoint sets. For overlapping sets to_model always raises ValueError (C32_overlap_raises_partial), so the property is false there (C32_equality_refuted)."
  },
  {
   "property": "C33",
   "status": "proved",
   "theorems": [
    "Sawatabi.Props.C33_nHot_order",
    "Sawatabi.Props.C33_zeroOrOneHot_order",
    "Sawatabi.Props.C33_equality_order"
   ],
   "note": "For all three constraint classes and all orders of the sets, including the union set of EqualityConstraint."
  },
  {
   "property": "C34",
   "status": "proved",
   "theorems": [
    "Sawatabi.Props.C34_add",
    "Sawatabi.Props.C34_remove",
    "Sawatabi.Props.C34_history",
    "Sawatabi.Props.C34_duplicates",
    "Sawatabi.Props.C34_edit",
    "Sawatabi.Props.C34_edit_world"
   ],
   "note": "add and remove as union and difference with exact success conditions, for all histories, and as methods of the constraint objects (C34_edit, C34_edit_world)."
  },
  {
   "property": "C35",
   "status": "partial",
   "theorems": [
    "Sawatabi.Props.C35_toIsing_exact_partial",
    "Sawatabi.Props.C35_toQubo_exact_partial",
    "Sawatabi.Props.C35_toIsing_shift_partial",
    "Sawatabi.Props.C35_toQubo_shift_partial",
    "Sawatabi.Props.C35_toIsing_gap_partial",
    "Sawatabi.Props.C35_toQubo_gap_partial",
    "Sawatabi.Props.C35_same_type",
    "Sawatabi.Props.C35_energy_refuted",
    "Sawatabi.Props.C35_scale_refuted",
    "Sawatabi.Props.C35_toIsing_active_partial",
    "Sawatabi.Props.C35_toQubo_active_partial",
    "Sawatabi.Props.C35_made_partial",
    "Sawatabi.Props.C35_made_gap_partial"
   ],
   "note": "The exact energy after a conversion is proved for all scales. The property is false: the offset gets the wrong sign, so the energy moves by twice the offset change (C35_energy_refuted); with scales other than 1 even energy differences change (C35_scale_refuted). With unit scales energy differences are preserved."
  },
  {
   "property": "C36",
   "status": "partial",
   "theorems": [
    "Sawatabi.Props.C36_qubo_roundtrip_partial",
    "Sawatabi.Props.C36_ising_roundtrip_partial",
    "Sawatabi.Props.C36_duplicate_refuted",
    "Sawatabi.Props.C36_qubo_active_partial",
    "Sawatabi.Props.C36_ising_active_partial",
    "Sawatabi.Props.C36_made_qubo_partial",
    "Sawatabi.Props.C36_made_ising_partial"
   ],
   "note": "Proved for models whose active interactions have distinct names (C36_qubo_active_partial, C36_ising_active_partial; hence all histories whose merges keep names distinct) and all scales, in both directions. False if active interactions share a name (C36_duplicate_refuted)."
  },
  {
   "property": "C37",
   "status": "partial",
   "theorems": [
    "Sawatabi.Props.C37_succeeds_partial",
    "Sawatabi.Props.C37_success_iff",
    "Sawatabi.Props.C37_placeholder_raises_partial",
    "Sawatabi.Props.C37_atomic_refuted",
    "Sawatabi.Props.C37_clash_refuted",
    "Sawatabi.Props.C37_left_toIsing",
    "Sawatabi.Props.C37_left_toQubo",
    "Sawatabi.Props.C37_retry",
    "Sawatabi.Props.C37_made_iff"
   ],
   "note": "False: C37_atomic_refuted, C37_clash_refuted. C37_success_iff says exactly when a conversion succeeds, C37_left_toIsing and C37_left_toQubo say exactly what is left when it raises, and C37_retry says that a second call accepts that."
  },
  {
   "property": "C38",
   "status": "partial",
   "theorems": [
    "Sawatabi.Props.C38_merge_energy_partial",
    "Sawatabi.Props.C38_merge_same_type",
    "Sawatabi.Props.C38_merge_into_ising_partial",
    "Sawatabi.Props.C38_merge_into_qubo_partial",
    "Sawatabi.Props.C38_merge_into_ising_gap_partial",
    "Sawatabi.Props.C38_merge_into_qubo_gap_partial",
    "Sawatabi.Props.C38_merge_types_refuted",
    "Sawatabi.Props.C38_made_partial"
   ],
   "note": "Proved for models of the same type. For different types the energies add up to the conversion error of C35 (exact formula proved); false as stated: C38_merge_types_refuted."
  },
  {
   "property": "C39",
   "status": "partial",
   "theorems": [
    "Sawatabi.Props.C39_merge_arrays",
    "Sawatabi.Props.C39_merge_arrays_types",
    "Sawatabi.Props.C39_merge_labels",
    "Sawatabi.Props.C39_foreign_array_refuted",
    "Sawatabi.Props.C39_exact",
    "Sawatabi.Props.C39_labels_exact"
   ],
   "note": "Proved for models whose arrays were registered by name and shape (C18). False for a foreign array, such as a slice (C39_foreign_array_refuted). C39_exact and C39_labels_exact say what each array and each label of the merged model is for every successful merge of proper models, with foreign arrays and of any types."
  },
  {
   "property": "C40",
   "status": "partial",
   "theorems": [
    "Sawatabi.Props.C40_merge_atomic_partial",
    "Sawatabi.Props.C40_argument_unchanged_partial",
    "Sawatabi.Props.C40_constraint_clash_refuted",
    "Sawatabi.Props.C40_argument_refuted",
    "Sawatabi.Props.C40_argument_failed_refuted",
    "Sawatabi.Props.C40_exact_partial",
    "Sawatabi.Props.C40_success_iff_partial",
    "Sawatabi.Props.C40_argument_iff",
    "Sawatabi.Props.C40_made_partial",
    "Sawatabi.Props.C40_made_raising_partial"
   ],
   "note": "Proved for models of the same type without a common constraint label, with the exact failure condition. False otherwise: C40_constraint_clash_refuted, C40_argument_refuted, C40_argument_failed_refuted. For models of any types C40_success_iff_partial says exactly when a merge returns, C40_exact_partial what each raising merge leaves, and C40_argument_iff when the argument stays as it is."
  },
  {
   "property": "C41",
   "status": "partial",
   "theorems": [
    "Sawatabi.Props.C41_merge_constraints",
    "Sawatabi.Props.C41_merge_interactions",
    "Sawatabi.Props.C41_unregistered_refuted",
    "Sawatabi.Props.C41_made_constraints",
    "Sawatabi.Props.C41_made_interactions"
   ],
   "note": "Proved for rectangular tables. Attributes that an update added are not registered and get lost (C41_unregistered_refuted)."
  },
  {
   "property": "C42",
   "status": "partial",
   "theorems": [
    "Sawatabi.Props.C42_energy_partial",
    "Sawatabi.Props.C42_import_energy",
    "Sawatabi.Props.C42_unchanged_partial",
    "Sawatabi.Props.C42_success",
    "Sawatabi.Props.C42_reimport_refuted",
    "Sawatabi.Props.C42_offset_refuted",
    "Sawatabi.Props.C42_success_iff",
    "Sawatabi.Props.C42_argument_exact_partial",
    "Sawatabi.Props.C42_argument_iff",
    "Sawatabi.Props.C42_raises_exact",
    "Sawatabi.Props.C42_reimport_exact_partial"
   ],
   "note": "A successful import of a labelled PyQUBO model adds its QUBO form for all bits and placeholder values (C42_energy_partial). C42_success_iff says exactly when an import into any rectangular model returns, C42_raises_exact what a raising one leaves. The PyQUBO model stays as it is exactly if its coefficients are numbers (C42_argument_iff); otherwise they are negated in place, so a second import differs (C42_reimport_refuted, C42_reimport_exact_partial gives its energy). An offset set before is lost (C42_offset_refuted)."
  },
  {
   "property": "C43",
   "status": "proved",
   "theorems": [
    "Sawatabi.Props.C43_reported_energy"
   ],
   "note": "C43_reported_energy: for every physical model that to_physical returns after any public calls."
  },
  {
   "property": "C44",
   "status": "proved",
   "theorems": [
    "Sawatabi.Props.C44_energy_history",
    "Sawatabi.Props.C44_initial_energy"
   ],
   "note": "For every physical model that to_physical returns after any public calls, for every sweep."
  },
  {
   "property": "C45",
   "status": "proved",
   "theorems": [
    "Sawatabi.Props.C45_flip_difference"
   ],
   "note": "For every physical model that to_physical returns after any public calls, every state and index."
  },
  {
   "property": "C46",
   "status": "proved",
   "theorems": [
    "Sawatabi.Props.C46_samples"
   ],
   "note": "For every physical model that to_physical returns after any public calls."
  },
  {
   "property": "C47",
   "status": "proved",
   "theorems": [
    "Sawatabi.Props.C47_used",
    "Sawatabi.Props.C47_no_index_error"
   ],
   "note": "For every physical model that to_physical returns after any public calls."
  },
  {
   "property": "C48",
   "status": "proved",
   "theorems": [
    "Sawatabi.Props.C48_forward",
    "Sawatabi.Props.C48_positive"
   ],
   "note": "For every physical model that to_physical returns after any public calls."
  },
  {
   "property": "C49",
   "status": "partial",
   "theorems": [
    "Sawatabi.Props.C49_reverse_partial",
    "Sawatabi.Props.C49_positive",
    "Sawatabi.Props.C49_bounded",
    "Sawatabi.Props.C49_bounded_refuted",
    "Sawatabi.Props.C49_bounded_exact",
    "Sawatabi.Props.C49_monotone"
   ],
   "note": "Schedule, positivity and monotonicity proved. The bound by the reversing temperature holds exactly if that temperature is at least 1e-9 (C49_bounded_exact); below, it fails in the first sweep (C49_bounded_refuted)."
  },
  {
   "property": "C50",
   "status": "proved",
   "theorems": [
    "Sawatabi.Props.C50_statistics"
   ],
   "note": "For every physical model that to_physical returns after any public calls."
  },
  {
   "property": "C51",
   "status": "proved",
   "theorems": [
    "Sawatabi.Props.C51_downhill",
    "Sawatabi.Props.C51_uphill",
    "Sawatabi.Props.C51_climb",
    "Sawatabi.Props.C51_greedy"
   ],
   "note": "For every physical model that to_physical returns after any public calls; exp is an arbitrary function."
  },
  {
   "property": "C52",
   "status": "partial",
   "theorems": [
    "Sawatabi.Props.C52_zero_sweeps_partial",
    "Sawatabi.Props.C52_wrong_number",
    "Sawatabi.Props.C52_empty_refuted",
    "Sawatabi.Props.C52_independent",
    "Sawatabi.Props.C52_zero_sweeps"
   ],
   "note": "Zero sweeps and wrong numbers proved for every physical model that to_physical returns after any public calls. An empty list of initial states is ignored (C52_empty_refuted)."
  },
  {
   "property": "C53",
   "status": "partial",
   "theorems": [
    "Sawatabi.Props.C53_ising_unchanged",
    "Sawatabi.Props.C53_qubo_exact",
    "Sawatabi.Props.C53_unchanged_iff",
    "Sawatabi.Props.C53_qubo_refuted",
    "Sawatabi.Props.C53_again"
   ],
   "note": "Proved for Ising models, and that a second call means the same (C53_again). For QUBO models the initial states of the caller are changed in place: every 0 becomes -1 (C53_qubo_exact), so they stay as they are exactly if no value is 0 (C53_unchanged_iff, C53_qubo_refuted)."
  },
  {
   "property": "C54",
   "status": "partial",
   "theorems": [
    "Sawatabi.Props.C54_seed_partial",
    "Sawatabi.Props.C54_zero_refuted"
   ],
   "note": "Proved for seeds other than 0; seed 0 is ignored (C54_zero_refuted)."
  },
  {
   "property": "C55",
   "status": "partial",
   "theorems": [
    "Sawatabi.Props.C55_no_crash_partial",
    "Sawatabi.Props.C55_exact",
    "Sawatabi.Props.C55_empty_reverse_refuted",
    "Sawatabi.Props.C55_negative_sweeps_refuted",
    "Sawatabi.Props.C55_missing_variable_refuted",
    "Sawatabi.Props.C55_deleted_variable_refuted",
    "Sawatabi.Props.C55_from_calls",
    "Sawatabi.Props.C55_made_partial"
   ],
   "note": "False in general: C55_empty_reverse_refuted, C55_negative_sweeps_refuted, C55_missing_variable_refuted, C55_deleted_variable_refuted. C55_from_calls says exactly when solve succeeds, for every physical model that to_physical returns, initial states in the domain and an exp that never raises; C55_made_partial: for models made by calls over their own variables (as in C25_made_partial) only the arguments of solve matter; C55_no_crash_partial allows an exp that raises for positive arguments, at temperatures that are not negative."
  },
  {
   "property": "C56",
   "status": "proved",
   "theorems": [
    "Sawatabi.Props.C56_empty",
    "Sawatabi.Props.C56_nonempty"
   ],
   "note": "For all five entry points; a non-empty model is sent exactly once."
  },
  {
   "property": "C57",
   "status": "proved",
   "theorems": [
    "Sawatabi.Props.C57_all_assignments",
    "Sawatabi.Props.C57_ground_state"
   ],
   "note": "For every physical model that to_physical returns after any public calls. dimod.ExactSolver is written out; the order of its samples is not claimed."
  },
  {
   "property": "C58",
   "status": "partial",
   "theorems": [
    "Sawatabi.Props.C58_decode",
    "Sawatabi.Props.C58_energy_partial",
    "Sawatabi.Props.C58_success",
    "Sawatabi.Props.C58_ising",
    "Sawatabi.Props.C58_offset_refuted",
    "Sawatabi.Props.C58_unbound",
    "Sawatabi.Props.C58_access"
   ],
   "note": "Decoding proved for every conversion. The reported energy lacks the offset: exact formula proved, equality only for offset 0 (C58_offset_refuted). Without access data: UnboundLocalError (C58_unbound)."
  },
  {
   "property": "C59",
   "status": "proved",
   "theorems": [
    "Sawatabi.Props.C59_complementary"
   ],
   "note": "Both modes, all lists of natural numbers. Sums above 2^53 (float halving) are not modelled."
  },
  {
   "property": "C60",
   "status": "proved",
   "theorems": [
    "Sawatabi.Props.C60_flag"
   ],
   "note": "Both modes."
  },
  {
   "property": "C61",
   "status": "proved",
   "theorems": [
    "Sawatabi.Props.C61_minimal"
   ],
   "note": "Both modes, against all partitions."
  },
  {
   "property": "C62",
   "status": "partial",
   "theorems": [
    "Sawatabi.Props.C62_sound",
    "Sawatabi.Props.C62_complete_partial",
    "Sawatabi.Props.C62_exact",
    "Sawatabi.Props.C62_single_refuted",
    "Sawatabi.Props.C62_zero_refuted"
   ],
   "note": "C62_exact, for all lists: returned are exactly those optimal smaller parts that start with a positive number. So it is complete for at least two positive numbers; a single number is not answered (C62_single_refuted); with zeros parts are missing (C62_zero_refuted)."
  },
  {
   "property": "C63",
   "status": "partial",
   "theorems": [
    "Sawatabi.Props.C63_answers",
    "Sawatabi.Props.C63_enumerate_partial",
    "Sawatabi.Props.C63_none_refuted"
   ],
   "note": "Never raises or returns None; with enumerate_all the exact condition for a non-empty answer is proved, and it can be empty (C63_none_refuted)."
  },
  {
   "property": "C64",
   "status": "partial",
   "theorems": [
    "Sawatabi.Props.C64_refuted",
    "Sawatabi.Props.C64_one_output_partial",
    "Sawatabi.Props.C64_all_windows_partial",
    "Sawatabi.Props.C64_one",
    "Sawatabi.Props.C64_escapes_exact"
   ],
   "note": "C64_one: if nothing is raised there is one output. C64_escapes_exact: what map_fn, solve_fn and unmap_fn raise never escapes; an exception escapes exactly if the filter function raises, the attenuation step raises, or no element is left after there were some. So false in general: C64_refuted, C73_escapes."
  },
  {
   "property": "C65",
   "status": "proved",
   "theorems": [
    "Sawatabi.Props.C65_stale",
    "Sawatabi.Props.C65_not_stale",
    "Sawatabi.Props.C65_monotone",
    "Sawatabi.Props.C65_first_refuted",
    "Sawatabi.Props.C65_exact",
    "Sawatabi.Props.C65_start",
    "Sawatabi.Props.C65_monotone_all"
   ],
   "note": "C65_exact: a window is ignored exactly if it is before the last processed one, or before -1 if there is none (C65_first_refuted); nothing is changed or called then. C65_start: a new state has no window behind it but those before -1. C65_monotone_all: the stored time never decreases."
  },
  {
   "property": "C66",
   "status": "proved",
   "theorems": [
    "Sawatabi.Props.C66_differences",
    "Sawatabi.Props.C66_replay",
    "Sawatabi.Props.C66_sliding",
    "Sawatabi.Props.C66_all"
   ],
   "note": "For all streams cut into non-empty intervals with bounds moving forward (sliding and fixed windows: C66_sliding), and all user functions."
  },
  {
   "property": "C67",
   "status": "partial",
   "theorems": [
    "Sawatabi.Props.C67_exact",
    "Sawatabi.Props.C67_incremental",
    "Sawatabi.Props.C67_late_refuted"
   ],
   "note": "C67_exact: incoming are exactly the elements of the window later than all before, the rest of the claim holds. A late element in a window in order is never incoming (C67_late_refuted)."
  },
  {
   "property": "C68",
   "status": "partial",
   "theorems": [
    "Sawatabi.Props.C68_reported",
    "Sawatabi.Props.C68_once_exact",
    "Sawatabi.Props.C68_elements_partial",
    "Sawatabi.Props.C68_once_partial",
    "Sawatabi.Props.C68_twice_refuted",
    "Sawatabi.Props.C68_outgoing_refuted"
   ],
   "note": "Elements proved as a multiset. False in general: C68_twice_refuted, C68_outgoing_refuted. Exactly: C68_once_exact says when each is there once, C68_reported which dropped elements are reported (those earlier than all current ones)."
  },
  {
   "property": "C69",
   "status": "partial",
   "theorems": [
    "Sawatabi.Props.C69_never_again",
    "Sawatabi.Props.C69_lost_refuted",
    "Sawatabi.Props.C69_incremental_partial"
   ],
   "note": "False for window, delta and attenuation: an element is never incoming again (C69_never_again, C69_lost_refuted). With incremental it stays among the elements (C69_incremental_partial)."
  },
  {
   "property": "C70",
   "status": "partial",
   "theorems": [
    "Sawatabi.Props.C70_exact",
    "Sawatabi.Props.C70_state_partial",
    "Sawatabi.Props.C70_shared_refuted"
   ],
   "note": "Proved if the model read from the state is a copy, or a failing map_fn leaves it unchanged. False otherwise: C70_shared_refuted. C70_exact says for every run what each call gets and what the states hold, shared or not: where the object in the state is passed, the changes of a failing map_fn stay in it."
  },
  {
   "property": "C71",
   "status": "proved",
   "theorems": [
    "Sawatabi.Props.C71_arrival_order",
    "Sawatabi.Props.C71_sorted"
   ],
   "note": "Elements with the same time are ordered by their index."
  },
  {
   "property": "C72",
   "status": "partial",
   "theorems": [
    "Sawatabi.Props.C72_interpolates_partial",
    "Sawatabi.Props.C72_equal",
    "Sawatabi.Props.C72_nan_refuted",
    "Sawatabi.Props.C72_nan_first",
    "Sawatabi.Props.C72_nan_later"
   ],
   "note": "Proved for attribute columns of numbers with two different values; with equal values the scales stay (C72_equal). With NaN (interactions without the attribute) it is false (C72_nan_refuted): if the first value is NaN all scales stay (C72_nan_first), otherwise NaN is passed over and becomes the scale of its interaction (C72_nan_later)."
  },
  {
   "property": "C73",
   "status": "partial",
   "theorems": [
    "Sawatabi.Props.C73_ok_partial",
    "Sawatabi.Props.C73_escapes",
    "Sawatabi.Props.C73_refuted",
    "Sawatabi.Props.C73_exact",
    "Sawatabi.Props.C73_ok_iff"
   ],
   "note": "False in general: C73_refuted, C73_escapes. C73_exact gives the outcome in every case on rectangular tables, with the exception and the state, and C73_ok_iff says when the step succeeds: to_physical succeeds without placeholders, and the attribute is a column that is not empty and has only numbers and NaN, or one string throughout."
  },
  {
   "property": "C74",
   "status": "proved",
   "theorems": [
    "Sawatabi.Props.C74_indices",
    "Sawatabi.Props.C74_unique"
   ],
   "note": "For processing one element after the other."
  },
  {
   "property": "C75",
   "status": "partial",
   "theorems": [
    "Sawatabi.Props.C75_exact",
    "Sawatabi.Props.C75_numbers_partial",
    "Sawatabi.Props.C75_newline_refuted"
   ],
   "note": "Exact for all messages (C75_exact). The property holds for messages that do not end with a newline; one with a newline at the end is read as well (C75_newline_refuted). The digit limit of int() in newer Python versions is not modelled."
  },
  {
   "property": "C76",
   "status": "proved",
   "theorems": [
    "Sawatabi.Props.C76_pointwise",
    "Sawatabi.Props.C76_inverse",
    "Sawatabi.Props.C76_rejects",
    "Sawatabi.Props.C76_lengths",
    "Sawatabi.Props.C76_used"
   ],
   "note": "For numbers; other lengths behave as in C76_lengths. The integer functions used by append and merge are instances (C76_used)."
  },
  {
   "property": "C77",
   "status": "proved",
   "theorems": [
    "Sawatabi.Props.C77_inverse",
    "Sawatabi.Props.C77_rejects",
    "Sawatabi.Props.C77_values"
   ],
   "note": ""
  },
  {
   "property": "C78",
   "status": "proved",
   "theorems": [
    "Sawatabi.Props.C78_nHot",
    "Sawatabi.Props.C78_zeroOrOneHot",
    "Sawatabi.Props.C78_equality"
   ],
   "note": "For all arguments of the modelled kinds (string label, number as strength, integer n)."
  },
  {
   "property": "C79",
   "status": "proved",
   "theorems": [
    "Sawatabi.Props.C79_leaves",
    "Sawatabi.Props.C79_row_major"
   ],
   "note": ""
  },
  {
   "property": "C80",
   "status": "partial",
   "theorems": [
    "Sawatabi.Props.C80_window",
    "Sawatabi.Props.C80_incremental",
    "Sawatabi.Props.C80_equal_times_refuted"
   ],
   "note": "Proved for streams with increasing timestamps and indices, arbitrary window cuts moving forward (window, delta) or batches (incremental), and any solver. Numbers with equal timestamps do not interact (C80_equal_times_refuted); C114 gives the model then."
  },
  {
   "property": "C81",
   "status": "partial",
   "theorems": [
    "Sawatabi.Props.C81_window",
    "Sawatabi.Props.C81_incremental",
    "Sawatabi.Props.C81_partial_refuted"
   ],
   "note": "Proved for the same streams, exactly: a window yields an optimal partition if it has at least two numbers and none is zero, and fails otherwise. With the partial algorithm the answer may be wrong (C81_partial_refuted; C108 says exactly what it is). Ties between samples are broken by the order of the samples."
  },
  {
   "property": "C82",
   "status": "partial",
   "theorems": [
    "Sawatabi.Props.C82_annealing",
    "Sawatabi.Props.C82_exact",
    "Sawatabi.Props.C82_annealing_ising_partial",
    "Sawatabi.Props.C82_exact_ising_partial",
    "Sawatabi.Props.C82_ragged_refuted"
   ],
   "note": "Proved for histories whose updates name registered attribute keys, for models without constraints and for QUBO models with constraints. For Ising models with constraints the objective is shifted by a constant (C21), given exactly by C82_annealing_ising_partial and C82_exact_ising_partial. For ragged tables it is wrong (C82_ragged_refuted)."
  },
  {
   "property": "C83",
   "status": "partial",
   "theorems": [
    "Sawatabi.Props.C83_ising_minimisers",
    "Sawatabi.Props.C83_ising_exact",
    "Sawatabi.Props.C83_minimisers",
    "Sawatabi.Props.C83_exact",
    "Sawatabi.Props.C83_ragged_refuted"
   ],
   "note": "Minimisers of the objective: proved for all models, QUBO and Ising. Exact solver: for histories whose updates name registered attribute keys; false otherwise (C83_ragged_refuted)."
  },
  {
   "property": "C84",
   "status": "proved",
   "theorems": [
    "Sawatabi.Props.C84_columns_aligned",
    "Sawatabi.Props.C84_rows",
    "Sawatabi.Props.C84_call",
    "Sawatabi.Props.C84_toPhysical",
    "Sawatabi.Props.C84_merge"
   ],
   "note": "Model/Columns.lean keeps one list for each default column. Each call ends alike on columns and rows (C84_call, C84_merge, C84_toPhysical), so all theorems about rows hold for the columns. The attribute columns may get out of step (C08)."
  },
  {
   "property": "C85",
   "status": "partial",
   "theorems": [
    "Sawatabi.Props.C85_add_partial",
    "Sawatabi.Props.C85_remove",
    "Sawatabi.Props.C85_getAttributes",
    "Sawatabi.Props.C85_update_partial",
    "Sawatabi.Props.C85_update_made_partial",
    "Sawatabi.Props.C85_ragged_refuted",
    "Sawatabi.Props.C85_add_exact",
    "Sawatabi.Props.C85_update_exact",
    "Sawatabi.Props.C85_add_made",
    "Sawatabi.Props.C85_update_made"
   ],
   "note": "Rejection with exception and unchanged state: for all models and arguments. That a call with valid arguments returns: remove on all models, add and update on rectangular tables; false otherwise (C85_ragged_refuted). For every model that calls can make it is proved exactly when add and update return (C85_add_made, C85_update_made): the attributes must also fit in their columns."
  },
  {
   "property": "C86",
   "status": "partial",
   "theorems": [
    "Sawatabi.Props.C86_constraints",
    "Sawatabi.Props.C86_remove_constraint",
    "Sawatabi.Props.C86_deleted",
    "Sawatabi.Props.C86_fixed",
    "Sawatabi.Props.C86_offset",
    "Sawatabi.Props.C86_variables_array",
    "Sawatabi.Props.C86_variables_array_raises",
    "Sawatabi.Props.C86_mixed_array_refuted"
   ],
   "note": "Constraints, deleted and fixed labels, offset: proved. variables(array) checks only the first variable of the array: exact condition proved, the stated one refuted (C86_mixed_array_refuted)."
  },
  {
   "property": "C87",
   "status": "partial",
   "theorems": [
    "Sawatabi.Props.C87_eq_iff",
    "Sawatabi.Props.C87_equivalence",
    "Sawatabi.Props.C87_constraint_sets",
    "Sawatabi.Props.C87_calls",
    "Sawatabi.Props.C87_histories",
    "Sawatabi.Props.C87_global_partial",
    "Sawatabi.Props.C87_getters",
    "Sawatabi.Props.C87_physical_partial",
    "Sawatabi.Props.C87_physical_eq_iff",
    "Sawatabi.Props.C87_physical_eq",
    "Sawatabi.Props.C87_numbering_refuted",
    "Sawatabi.Props.C87_merge_refuted",
    "Sawatabi.Props.C87_raising_refuted",
    "Sawatabi.Props.C87_physical_contents_partial",
    "Sawatabi.Props.C87_physical_calls_partial"
   ],
   "note": "The meaning of ==, equal physical models, getters, and all calls except five: proved for all histories. delete_variable, to_ising, to_qubo: proved if they return; raising calls can leave different models (C87_raising_refuted). to_physical: the contents and energies agree, with constraints as well (C87_physical_contents_partial), and one call returns if the other does (C87_physical_calls_partial, for distinct names); the numbering can differ (C87_numbering_refuted). merge: false (C87_merge_refuted)."
  },
  {
   "property": "C88",
   "status": "proved",
   "theorems": [
    "Sawatabi.Props.C88_compilable",
    "Sawatabi.Props.C88_mapping",
    "Sawatabi.Props.C88_empty_window",
    "Sawatabi.Props.C88_windows"
   ],
   "note": "For the window and delta algorithms. That PyQUBO compiles quadratic expressions correctly is a hypothesis (CompilesAll); C88_compilable shows that it can be met. The geodesic distance is an arbitrary function."
  },
  {
   "property": "C89",
   "status": "partial",
   "theorems": [
    "Sawatabi.Props.C89_reading",
    "Sawatabi.Props.C89_missing",
    "Sawatabi.Props.C89_length",
    "Sawatabi.Props.C89_tour",
    "Sawatabi.Props.C89_answers",
    "Sawatabi.Props.C89_shortest_partial",
    "Sawatabi.Props.C89_far_refuted"
   ],
   "note": "Every window yields what minimising bits select (C89_answers). That is a shortest tour if some tour is shorter than 30 (3000 km); for two cities farther apart one of them is named twice (C89_far_refuted). Distances are nonnegative, and 0 from a place to itself."
  },
  {
   "property": "C90",
   "status": "partial",
   "theorems": [
    "Sawatabi.Props.C90_as_copy",
    "Sawatabi.Props.C90_energy",
    "Sawatabi.Props.C90_names",
    "Sawatabi.Props.C90_constraint_refuted"
   ],
   "note": "C90_as_copy: exactly like merging an equal second model. The energy doubles, and the call succeeds only without constraints. Names are not distinct afterwards (C90_names), and with constraints the call raises after doubling the interactions (C90_constraint_refuted)."
  },
  {
   "property": "C91",
   "status": "partial",
   "theorems": [
    "Sawatabi.Props.C91_made",
    "Sawatabi.Props.C91_call",
    "Sawatabi.Props.C91_register",
    "Sawatabi.Props.C91_merge",
    "Sawatabi.Props.C91_frame",
    "Sawatabi.Props.C91_delete",
    "Sawatabi.Props.C91_apart",
    "Sawatabi.Props.C91_edit",
    "Sawatabi.Props.C91_sharing",
    "Sawatabi.Props.C91_independent_refuted"
   ],
   "note": "A call does to its model what it does when alone (C91_call, C91_register, C91_merge), so every state is one that calls on separate models reach (C91_made). Other models keep their state under all calls except delete_variable, which changes exactly shared constraint objects (C91_delete); then the property is false (C91_independent_refuted)."
  },
  {
   "property": "C92",
   "status": "proved",
   "theorems": [
    "Sawatabi.Samples.C92_finds",
    "Sawatabi.Samples.C92_n_hot"
   ],
   "note": "For all sizes and all n, through add_interaction, to_physical and the exact local solver."
  },
  {
   "property": "C93",
   "status": "proved",
   "theorems": [
    "Sawatabi.Samples.C93_finds",
    "Sawatabi.Samples.C93_succeeds_iff",
    "Sawatabi.Samples.C93_same_optima"
   ],
   "note": "For all sizes and all n, both model types. The constant that the conversion of Ising models adds (C21) is part of the optimal energy."
  },
  {
   "property": "C94",
   "status": "proved",
   "theorems": [
    "Sawatabi.Samples.C94_ising",
    "Sawatabi.Samples.C94_qubo",
    "Sawatabi.Samples.C94_one_body",
    "Sawatabi.Samples.C94_two_body",
    "Sawatabi.Samples.C94_square"
   ],
   "note": "All six models of the file."
  },
  {
   "property": "C95",
   "status": "partial",
   "theorems": [
    "Sawatabi.Props.C95_succeeds_iff",
    "Sawatabi.Props.C95_model",
    "Sawatabi.Props.C95_yields",
    "Sawatabi.Props.C95_unweighted",
    "Sawatabi.Props.C95_optimal_refuted",
    "Sawatabi.Props.C95_zero_scale_refuted"
   ],
   "note": "Model, partition and difference: proved for all sliding windows of at least two numbers and positive minimum scales. The first clause is false for windows with a single number (C95_succeeds_iff gives the exact condition). With a minimum scale below 1 the difference need not be least (C95_optimal_refuted), with 0 the window fails (C95_zero_scale_refuted)."
  },
  {
   "property": "C96",
   "status": "proved",
   "theorems": [
    "Sawatabi.Props.C96_time",
    "Sawatabi.Props.C96_windows",
    "Sawatabi.Props.C96_piece",
    "Sawatabi.Props.C96_input",
    "Sawatabi.Props.C96_window",
    "Sawatabi.Props.C96_incremental"
   ],
   "note": "For all texts whose lines have no newline at the end (ReadFromText strips them), windows delivered in the order of time. Beam's windows are written out in the model. C96_time: the time of a window is the last microsecond before its end."
  },
  {
   "property": "C97",
   "status": "partial",
   "theorems": [
    "Sawatabi.Props.C97_succeeds_iff",
    "Sawatabi.Props.C97_sample_refuted",
    "Sawatabi.Props.C97_answers"
   ],
   "note": "The first clause is false: C97_succeeds_iff gives the exact condition (no numbers, or neither their count nor the size is one more than a multiple of the period); C97_sample_refuted: the sample's options with six numbers. C97_answers: the weighted optima whenever it gets through."
  },
  {
   "property": "C98",
   "status": "partial",
   "theorems": [
    "Sawatabi.Props.C98_shortest_partial",
    "Sawatabi.Props.C98_answers",
    "Sawatabi.Props.C98_far_refuted",
    "Sawatabi.Props.C98_text_partial"
   ],
   "note": "The full claim is false: over two cities with a round trip longer than 30 one is named twice (C98_far_refuted). C98_shortest_partial proves it for cities with a tour shorter than 30, as in C89. C98_answers says for all distances that every answer is read from bits minimising the Hamiltonian. C98_text_partial says what the texts of all answers of the running pipeline can be read as (as C122, with its conditions on names). Windows are delivered in the order of time."
  },
  {
   "property": "C99",
   "status": "partial",
   "theorems": [
    "Sawatabi.Props.C99_random",
    "Sawatabi.Props.C99_sequential_refuted",
    "Sawatabi.Props.C99_follows_partial",
    "Sawatabi.Props.C99_drawn_partial",
    "Sawatabi.Props.C99_reachable",
    "Sawatabi.Props.C99_follows",
    "Sawatabi.Props.C99_every_state",
    "Sawatabi.Props.C99_optimum",
    "Sawatabi.Props.C99_connected",
    "Sawatabi.Props.C99_any_start_refuted"
   ],
   "note": "C99_reachable gives exactly the states a run can return: those that num_sweeps passes of single flips lead to, a spin being left alone only where turning it raises the energy. From a random initial state these are all states (C99_every_state). From a given one, in random order: with at least twice as many sweeps as variables, all states (C99_random); with fewer, every state that no single flip keeps or lowers the energy of (C99_optimum), and with two or more sweeps all states if there is such a state (C99_connected). False for few sweeps (C99_any_start_refuted: one sweep from an optimum never returns to it) and in sequential order for any number of sweeps (C99_sequential_refuted: from one state of three spins that want to be alike, runs go back and forth between two states at every temperature). Runs without reverse options and runs with both of them, the period being any number (rounded up)."
  },
  {
   "property": "C100",
   "status": "proved",
   "theorems": [
    "Sawatabi.Props.C100_share",
    "Sawatabi.Props.C100_near",
    "Sawatabi.Props.C100_monotone"
   ],
   "note": "The random numbers are rationals in [0, 1); exp is a parameter."
  },
  {
   "property": "C101",
   "status": "partial",
   "theorems": [
    "Sawatabi.Props.C101_exact_partial",
    "Sawatabi.Props.C101_fails",
    "Sawatabi.Props.C101_stages",
    "Sawatabi.Props.C101_lossless",
    "Sawatabi.Props.C101_off_refuted",
    "Sawatabi.Props.C101_none_refuted"
   ],
   "note": "C101_exact_partial says exactly what is written. The options are tested by presence, so the time is also written for False or None (C101_off_refuted), and a prefix or suffix that is None makes every window fail with TypeError (C101_none_refuted)."
  },
  {
   "property": "C102",
   "status": "partial",
   "theorems": [
    "Sawatabi.Props.C102_text_partial",
    "Sawatabi.Props.C102_refuted"
   ],
   "note": "False: the message names the time of the window twice and never that of the last one (C102_refuted, for all times that are written differently). C102_text_partial gives the message."
  },
  {
   "property": "C103",
   "status": "proved",
   "theorems": [
    "Sawatabi.Props.C103_readable",
    "Sawatabi.Props.C103_written",
    "Sawatabi.Props.C103_window",
    "Sawatabi.Props.C103_incremental"
   ],
   "note": "Window, delta and incremental algorithms with the exact solver; windows of at least two numbers, none zero."
  },
  {
   "property": "C104",
   "status": "proved",
   "theorems": [
    "Sawatabi.Props.C104_stops",
    "Sawatabi.Props.C104_endless",
    "Sawatabi.Props.C104_numbers"
   ],
   "note": "The Pub/Sub client is a library; other kinds of messages are arbitrary functions of the counter."
  },
  {
   "property": "C105",
   "status": "partial",
   "theorems": [
    "Sawatabi.Props.C105_prefix",
    "Sawatabi.Props.C105_one_line",
    "Sawatabi.Props.C105_prints_partial",
    "Sawatabi.Props.C105_made_partial",
    "Sawatabi.Props.C105_ragged_refuted",
    "Sawatabi.Props.C105_box_partial",
    "Sawatabi.Props.C105_shows",
    "Sawatabi.Props.C105_physical_box",
    "Sawatabi.Props.C105_repr",
    "Sawatabi.Props.C105_physical_repr_refuted",
    "Sawatabi.Props.C105_name_refuted",
    "Sawatabi.Props.C105_physical_lines",
    "Sawatabi.Props.C105_lines_partial",
    "Sawatabi.Props.C105_repr_shows",
    "Sawatabi.Props.C105_physical_repr_shows"
   ],
   "note": "Printing works exactly for tables with columns of equal length (C105_prints_partial), so for histories whose updates name registered attribute keys; false otherwise (C105_ragged_refuted). Boxes exactly if no array has a line end in its name (C105_box_partial, C105_name_refuted). C105_lines_partial, C105_physical_lines and C105_repr_shows give all lines and parts in order. The brackets of a printed physical model close before its offset (C105_physical_repr_refuted)."
  },
  {
   "property": "C106",
   "status": "proved",
   "theorems": [
    "Sawatabi.Props.C106_all",
    "Sawatabi.Props.C106_one",
    "Sawatabi.Props.C106_article"
   ],
   "note": "isinstance is an arbitrary relation."
  },
  {
   "property": "C107",
   "status": "proved",
   "theorems": [
    "Sawatabi.Props.C107_units",
    "Sawatabi.Props.C107_whole"
   ],
   "note": "The clock is a rational; rounding of floats is not modelled."
  },
  {
   "property": "C108",
   "status": "proved",
   "theorems": [
    "Sawatabi.Props.C108_model",
    "Sawatabi.Props.C108_model_exact",
    "Sawatabi.Props.C108_window",
    "Sawatabi.Props.C108_when",
    "Sawatabi.Props.C108_answer",
    "Sawatabi.Props.C108_answer_when"
   ],
   "note": "For batches of a stream with increasing timestamps and indices. C108_when assumes that the filter keeps no zeros, as in the sample; C108_model_exact does not."
  },
  {
   "property": "C109",
   "status": "proved",
   "theorems": [
    "Sawatabi.Props.C109_energy_spins",
    "Sawatabi.Props.C109_energy",
    "Sawatabi.Props.C109_history",
    "Sawatabi.Props.C109_decision",
    "Sawatabi.Props.C109_exact",
    "Sawatabi.Props.C109_nearest",
    "Sawatabi.Props.C109_integers",
    "Sawatabi.Props.C109_integers_refuted"
   ],
   "note": "For every rounding with a bounded relative error, in particular to the nearest with 53 binary digits (C109_nearest); no overflow, no NaN. dimod adds up an energy in any order. C109_energy and C109_history take the spin coefficients as converted without error; C109_energy_spins takes whatever coefficients the conversion gave (C117 says which). Larger integers are not exact (C109_integers_refuted)."
  },
  {
   "property": "C110",
   "status": "proved",
   "theorems": [
    "Sawatabi.Props.C110_outcome",
    "Sawatabi.Props.C110_coefficients",
    "Sawatabi.Props.C110_energy",
    "Sawatabi.Props.C110_exact",
    "Sawatabi.Props.C110_reported",
    "Sawatabi.Props.C110_integers",
    "Sawatabi.Props.C110_vanish_refuted",
    "Sawatabi.Props.C110_appear_refuted"
   ],
   "note": "For every rounding with a bounded relative error; no overflow, no NaN. For models without placeholders and constraints (the arithmetic of both is in PyQUBO; C126 has constraints); the conversion from binary variables to spins in the solver is taken as exact here (C117 has it rounded). Without the limit on the weights, a term of the exact physical model may be missing (C110_vanish_refuted) and one may be left over (C110_appear_refuted), even with integer coefficients."
  },
  {
   "property": "C111",
   "status": "proved",
   "theorems": [
    "Sawatabi.Props.C111_chain",
    "Sawatabi.Props.C111_keeps",
    "Sawatabi.Props.C111_annealing",
    "Sawatabi.Props.C111_total"
   ],
   "note": "In exact arithmetic, apart from exp, whose error is a parameter. The numbers for the acceptance are taken to be independent, even on the multiples of 1 / N (numpy: N = 2 ** 53) and independent of the orders of the variables; C111_annealing holds for each sequence of orders. C111_chain gives the exact distribution, C111_keeps is the bound for flips in any order, C111_annealing for whole runs, C111_total says that chances add up to 1."
  },
  {
   "property": "C112",
   "status": "partial",
   "theorems": [
    "Sawatabi.Props.C112_run",
    "Sawatabi.Props.C112_lines",
    "Sawatabi.Props.C112_formats",
    "Sawatabi.Props.C112_total",
    "Sawatabi.Props.C112_made_partial",
    "Sawatabi.Props.C112_by_variable",
    "Sawatabi.Props.C112_body",
    "Sawatabi.Props.C112_name",
    "Sawatabi.Props.C112_ragged_refuted"
   ],
   "note": "C112_run and C112_lines say what comes back in every case; along histories whose updates name only known attributes every query that pandas accepts is answered (C112_made_partial). Otherwise the columns can differ in length and every query raises (C112_ragged_refuted). A query is a condition on single lines; conditions that compare lines, and the parsing of queries by pandas, are left out."
  },
  {
   "property": "C113",
   "status": "partial",
   "theorems": [
    "Sawatabi.Props.C113_by_name",
    "Sawatabi.Props.C113_all",
    "Sawatabi.Props.C113_arrays",
    "Sawatabi.Props.C113_delete_fix",
    "Sawatabi.Props.C113_alive_refuted"
   ],
   "note": "C113_by_name, C113_all and C113_arrays say what the getters return after any history without merge and variables(array). The variables are not only the alive ones as documented: delete_variable and fix_variable never change what is returned (C113_delete_fix, C113_alive_refuted)."
  },
  {
   "property": "C114",
   "status": "proved",
   "theorems": [
    "Sawatabi.Props.C114_window",
    "Sawatabi.Props.C114_incremental",
    "Sawatabi.Props.C114_agrees",
    "Sawatabi.Props.C114_answer",
    "Sawatabi.Props.C114_answer_incremental",
    "Sawatabi.Props.C114_gap",
    "Sawatabi.Props.C114_optimal_refuted"
   ],
   "note": "For the window, delta and incremental algorithms; batches of the incremental algorithm must not share a timestamp with each other. The partition need not be optimal: C114_optimal_refuted. C114_agrees shows that with different timestamps this is the statement of C80."
  },
  {
   "property": "C115",
   "status": "partial",
   "theorems": [
    "Sawatabi.Props.C115_calls",
    "Sawatabi.Props.C115_new",
    "Sawatabi.Props.C115_raises",
    "Sawatabi.Props.C115_bqm",
    "Sawatabi.Props.C115_loop",
    "Sawatabi.Props.C115_refines",
    "Sawatabi.Props.C115_exact",
    "Sawatabi.Props.C115_unindexed_error",
    "Sawatabi.Props.C115_unindexed_refuted",
    "Sawatabi.Props.C115_extended",
    "Sawatabi.Props.C115_extended_iff"
   ],
   "note": "All of it for the local and the D-Wave solver. SawatabiSolver and OptiganSolver never solve a model that was written by hand only, because its labels have no indices (C115_unindexed_refuted, C115_unindexed_error). If interactions are added to the result of to_physical, SawatabiSolver reports the right energies (C115_extended), and its preparation succeeds exactly if no new variable and no self-loop was added (C115_extended_iff). Coefficients are numbers, labels are strings."
  },
  {
   "property": "C116",
   "status": "proved",
   "theorems": [
    "Sawatabi.Props.C116_equal",
    "Sawatabi.Props.C116_raises",
    "Sawatabi.Props.C116_order"
   ],
   "note": "In exact arithmetic. If a model cannot be prepared (a used variable has no index) both raise, but maybe different exceptions; otherwise the exceptions are the same as well (C116_raises). C116_order is about logical models whose updates named known attributes only."
  },
  {
   "property": "C117",
   "status": "proved",
   "theorems": [
    "Sawatabi.Props.C117_conversion",
    "Sawatabi.Props.C117_ising",
    "Sawatabi.Props.C117_energy",
    "Sawatabi.Props.C117_reported",
    "Sawatabi.Props.C117_exact",
    "Sawatabi.Props.C117_integers",
    "Sawatabi.Props.C117_integers_refuted"
   ],
   "note": "For every rounding with a bounded relative error; no overflow, no underflow (halves and quarters are exact), no NaN. For Ising models nothing is converted (C117_ising). With 2^53 instead of 2^51 it is false, because the conversion rounds although all energies are floats (C117_integers_refuted)."
  },
  {
   "property": "C118",
   "status": "proved",
   "theorems": [
    "Sawatabi.Props.C118_nonnegative",
    "Sawatabi.Props.C118_negative",
    "Sawatabi.Props.C118_returns_iff",
    "Sawatabi.Props.C118_optimal"
   ],
   "note": "Halving is exact here, a division of floats in the code. C118_nonnegative reduces numbers that are not negative to C59 to C63; C118_negative gives the outcome with a negative number: the empty part if the total is -1, 0 or 1, IndexError otherwise. With enumerate_all the list of partitions may be empty, as in C63."
  },
  {
   "property": "C119",
   "status": "proved",
   "theorems": [
    "Sawatabi.Props.C119_interpolates",
    "Sawatabi.Props.C119_raises",
    "Sawatabi.Props.C119_timestamp_iff",
    "Sawatabi.Props.C119_dirty",
    "Sawatabi.Props.C119_keys",
    "Sawatabi.Props.C119_other"
   ],
   "note": "For coefficient, scale, timestamp, dirty, removed and name as keys; body, key, key_0, key_1 and interacts are left out. C119_timestamp_iff says when the step succeeds with the timestamps. With dirty nothing is attenuated on rectangular tables (C119_dirty), because to_physical has marked all interactions clean."
  },
  {
   "property": "C120",
   "status": "partial",
   "theorems": [
    "Sawatabi.Props.C120_valid",
    "Sawatabi.Props.C120_library",
    "Sawatabi.Props.C120_edit_fresh",
    "Sawatabi.Props.C120_mutate_iff",
    "Sawatabi.Props.C120_kept",
    "Sawatabi.Props.C120_careful",
    "Sawatabi.Props.C120_alias_refuted"
   ],
   "note": "The first half is false: a constructor keeps the set object it is given (C120_kept), so changing that set later changes the constraint (C120_alias_refuted). C120_mutate_iff says exactly which constraints change. The second half holds (C120_library): calls never change an existing set, and act on constraints as on values. C120_edit_fresh: an editing method gives the constraint a new set of its own. C120_careful: if constructors get copies, constraints are values whatever the caller does to their own sets."
  },
  {
   "property": "C121",
   "status": "proved",
   "theorems": [
    "Sawatabi.Profile.C121_transparent",
    "Sawatabi.Profile.C121_time",
    "Sawatabi.Profile.C121_nested",
    "Sawatabi.Profile.C121_random",
    "Sawatabi.Profile.C121_raises",
    "Sawatabi.Profile.C121_seed",
    "Sawatabi.Profile.C121_physical",
    "Sawatabi.Profile.C121_profiled"
   ],
   "note": "The function with the decorator is C121_profiled; C121_transparent, C121_time and C121_nested are about all functions. @wraps is not modelled."
  },
  {
   "property": "C122",
   "status": "partial",
   "theorems": [
    "Sawatabi.Props.C122_lines",
    "Sawatabi.Props.C122_readable_partial",
    "Sawatabi.Props.C122_tour",
    "Sawatabi.Props.C122_arrow_refuted"
   ],
   "note": "Proved for names that are not empty and have neither a line end nor '>' (how str writes the data is arbitrary). False otherwise: with a city named 'a -> b' two tours of the same cities have the same text (C122_arrow_refuted)."
  },
  {
   "property": "C123",
   "status": "partial",
   "theorems": [
    "Sawatabi.Props.C123_forgets",
    "Sawatabi.Props.C123_boltzmann",
    "Sawatabi.Props.C123_sequential_refuted"
   ],
   "note": "Proved in random order: C123_forgets (the initial state is forgotten at a geometric rate, given explicitly) and C123_boltzmann (the samples get near the Boltzmann distribution, up to the errors of the grid of the random numbers and of exp, as in C111). False in sequential order (C123_sequential_refuted): the samples from two initial states may have nothing in common after any number of sweeps. The orders and the numbers are taken to be independent and even."
  },
  {
   "property": "C124",
   "status": "partial",
   "theorems": [
    "Sawatabi.Props.C124_readable_partial",
    "Sawatabi.Props.C124_repr_partial",
    "Sawatabi.Props.C124_equal_partial",
    "Sawatabi.Props.C124_ne",
    "Sawatabi.Props.C124_paren_refuted",
    "Sawatabi.Props.C124_order_refuted"
   ],
   "note": "Proved for variables whose labels contain no closing parenthesis; false otherwise (C124_paren_refuted). Conversely equal constraints can have different texts, as sets are written in the order of their iteration (C124_order_refuted)."
  },
  {
   "property": "C125",
   "status": "proved",
   "theorems": [
    "Sawatabi.Props.C125_readable",
    "Sawatabi.Props.C125_readable_all",
    "Sawatabi.Props.C125_answer",
    "Sawatabi.Props.C125_table",
    "Sawatabi.Props.C125_table_all",
    "Sawatabi.Props.C125_aligned"
   ],
   "note": "C125_table and C125_table_all say what is printed, C125_readable and C125_readable_all that a text is the table of at most one list of numbers with one content, C125_aligned that the columns are aligned, C125_answer that the answer is the one without printing."
  },
  {
   "property": "C126",
   "status": "proved",
   "theorems": [
    "Sawatabi.Props.C126_outcome",
    "Sawatabi.Props.C126_energy",
    "Sawatabi.Props.C126_exact",
    "Sawatabi.Props.C126_reported",
    "Sawatabi.Props.C126_integers",
    "Sawatabi.Props.C126_feasible",
    "Sawatabi.Props.C126_feasible_refuted"
   ],
   "note": "For every rounding with a bounded relative error; no overflow, no NaN, no placeholders; QUBO models (for Ising models the conversion of the models of constraints is not modelled in floats). C126_feasible needs the margin for the error: without it, a violated constraint can be optimal in floats (C126_feasible_refuted)."
  },
  {
   "property": "C127",
   "status": "partial",
   "theorems": [
    "Sawatabi.Props.C127_exact",
    "Sawatabi.Props.C127_lossless_iff",
    "Sawatabi.Props.C127_lost_refuted",
    "Sawatabi.Props.C127_optigan",
    "Sawatabi.Props.C127_vectors",
    "Sawatabi.Props.C127_vectors_refuted",
    "Sawatabi.Props.C127_made_partial",
    "Sawatabi.Props.C127_distinct_iff"
   ],
   "note": "C127_exact says what the aggregation makes of any list, C127_optigan what it says about the answer of an honest server. The count per vector needs distinct labels (C127_vectors; C127_made_partial for models made by calls); C127_distinct_iff: samples tell vectors apart exactly then; two arrays that share a label merge different vectors (C127_vectors_refuted), and with a server that reports different energies for equal vectors the lowest energy may be lost (C127_lost_refuted, C127_lossless_iff)."
  },
  {
   "property": "C128",
   "status": "partial",
   "theorems": [
    "Sawatabi.Props.C128_created_iff",
    "Sawatabi.Props.C128_raises",
    "Sawatabi.Props.C128_complete",
    "Sawatabi.Props.C128_frame",
    "Sawatabi.Props.C128_filter_refuted",
    "Sawatabi.Props.C128_attenuation_refuted"
   ],
   "note": "C128_created_iff and C128_raises are exact for creation. False later: filter_fn, attenuation.key and attenuation.min_scale are read when a window is handled, and the KeyError escapes (C128_filter_refuted, C128_attenuation_refuted). With these options the pipelines are those of the other claims (C128_complete). What Beam does with a period that is not positive is not modelled."
  },
  {
   "property": "C129",
   "status": "proved",
   "theorems": [
    "Sawatabi.Props.C129_text",
    "Sawatabi.Props.C129_ascii",
    "Sawatabi.Props.C129_sent",
    "Sawatabi.Props.C129_sent_iff",
    "Sawatabi.Props.C129_no_access",
    "Sawatabi.Props.C129_compression",
    "Sawatabi.Props.C129_refines",
    "Sawatabi.Props.C129_given_refuted"
   ],
   "note": "C129_sent and C129_sent_iff say what is sent and when, C129_no_access what is raised otherwise, C129_compression that the flags change nothing, C129_refines that results and exceptions are those of the model behind C58 and C127, C129_text and C129_ascii that the JSON text can be read. That access data given to the constructor is used is not claimed: a token (or endpoint) given alone is ignored in favour of the configuration file, without a warning (C129_given_refuted). gzip and the format of numbers are arbitrary functions that can be undone."
  },
  {
   "property": "C130",
   "status": "proved",
   "theorems": [
    "Sawatabi.Props.C130_optigan",
    "Sawatabi.Props.C130_best",
    "Sawatabi.Props.C130_strong"
   ],
   "note": "C130_optigan, C130_best, C130_strong. The histories are those of C25_made_partial; for others the conversion to a polynomial may raise (C25). The reported energies lack the offset (C58_offset_refuted), so only differences are those of the objective; the theorems say by how much exactly."
  },
  {
   "property": "C131",
   "status": "proved",
   "theorems": [
    "Sawatabi.Props.C131_access",
    "Sawatabi.Props.C131_given_refuted",
    "Sawatabi.Props.C131_connect_fails",
    "Sawatabi.Props.C131_sent",
    "Sawatabi.Props.C131_dwave",
    "Sawatabi.Props.C131_dwave_best",
    "Sawatabi.Props.C131_local",
    "Sawatabi.Props.C131_local_best"
   ],
   "note": "C131_access, C131_connect_fails, C131_sent, C131_dwave, C131_dwave_best, C131_local, C131_local_best. The constant is 0 for QUBO models and for models without constraints (see C21 for Ising models). That access data given to the constructor is used is not claimed: a token or endpoint alone, and embedding parameters that are not a dictionary, are ignored without a warning (C131_given_refuted). What the library does is a parameter."
  },
  {
   "property": "C132",
   "status": "proved",
   "theorems": [
    "Sawatabi.Props.C132_empty_iff",
    "Sawatabi.Props.C132_succeeds_iff",
    "Sawatabi.Props.C132_succeeds_exact",
    "Sawatabi.Props.C132_optima",
    "Sawatabi.Props.C132_optigan",
    "Sawatabi.Props.C132_annealing",
    "Sawatabi.Props.C132_feasible"
   ],
   "note": "C132_empty_iff, C132_succeeds_iff, C132_succeeds_exact, C132_optima, C132_optigan, C132_annealing, C132_feasible. Removed interactions whose names end in a parenthesis, labels with * in constraints and, for Ising models, labels with spaces are excluded, since generated names could coincide (C22_exact has the exact condition)."
  },
  {
   "property": "C133",
   "status": "partial",
   "theorems": [
    "Sawatabi.Props.C133_append",
    "Sawatabi.Props.C133_update",
    "Sawatabi.Props.C133_update_other",
    "Sawatabi.Props.C133_fix_exact",
    "Sawatabi.Props.C133_fix_other",
    "Sawatabi.Props.C133_to_ising",
    "Sawatabi.Props.C133_to_qubo",
    "Sawatabi.Props.C133_merge",
    "Sawatabi.Props.C133_to_physical",
    "Sawatabi.Props.C133_fix_refuted"
   ],
   "note": "C133_append, C133_update, C133_update_other, C133_to_ising, C133_to_qubo, C133_merge, C133_to_physical: all of it. fix_variable warns exactly as stated (C133_fix_exact, C133_fix_other), but the last clause is false for it: the variable already counts as fixed when the warning is raised (C133_fix_refuted)."
  },
  {
   "property": "C134",
   "status": "proved",
   "theorems": [
    "Sawatabi.Props.C134_names",
    "Sawatabi.Props.C134_topic",
    "Sawatabi.Props.C134_subscription",
    "Sawatabi.Props.C134_neither",
    "Sawatabi.Props.C134_numbers",
    "Sawatabi.Props.C134_publisher",
    "Sawatabi.Props.C134_not_text"
   ],
   "note": "C134_topic, C134_subscription, C134_numbers, C134_publisher, C134_names, C134_neither, C134_not_text. That the service delivers each message once is assumed (Delivers); that Beam rejects some names, such as empty ones, is not modelled; UTF-8 is that of Lean's library."
  },
  {
   "property": "C135",
   "status": "proved",
   "theorems": [
    "Sawatabi.Props.C135_name",
    "Sawatabi.Props.C135_message",
    "Sawatabi.Props.C135_distinct",
    "Sawatabi.Props.C135_cities",
    "Sawatabi.Props.C135_no_json",
    "Sawatabi.Props.C135_shown"
   ],
   "note": "C135_name, C135_message, C135_distinct, C135_cities, C135_no_json, C135_shown. Assumed: json.loads undoes json.dumps for objects with one pair of numbers (LoadsPairs), the service delivers each message once (Delivers), and for C135_distinct that different numbers are written differently (NumberFormat). Names are of ASCII letters, as drawn."
  },
  {
   "property": "C136",
   "status": "proved",
   "theorems": [
    "Sawatabi.Props.C136_numbers",
    "Sawatabi.Props.C136_texts"
   ],
   "note": "C136_numbers, C136_texts. What is drawn is an argument (texts without newlines, as only letters and digits are drawn)."
  }
 ]
}
