STATUS.update({
"C01": ("partial", "Proved for all histories of calls (also raising ones) without merge and without a raising to_physical on a model with constraints. False with merge (C01_merge_refuted) and after several raising to_physical (C01_failed_refuted); C01_merge_iff says exactly which successful merges keep names unique, and C01_made_partial covers all histories with such merges."),
"C02": ("proved", "Energy, frame, and exactly when the call succeeds."),
"C03": ("partial", "remove: proved. add: atomic on rectangular tables, refuted for ragged ones. update: atomic for registered attribute keys."),
"C04": ("proved", "For add, update, remove and get_attributes; degenerate pairs are always rejected."),
"C05": ("proved", "Frame of update for the interaction table and for the attribute columns."),
"C06": ("partial", "Proved without attributes. With attributes it is false: they are dropped (C06_update_absent_refuted)."),
"C07": ("partial", "Marking, persistence, no add, no update, remove again: proved. The clause on to_physical is in progress."),
"C08": ("partial", "Proved for histories whose updates use registered attribute keys; false otherwise (C08_rect_refuted)."),
"C10": ("partial", "Explicit timestamps are stored; the default is the import time, so the property is false (C10_default_timestamp_refuted)."),
})
STATUS.update({
"C09": ("partial", "Proved for add, and for update with registered keys; false for an update with a new key (C09_update_new_key_refuted)."),
"C11": ("partial", "Proved for models with distinct interaction names, so for all histories whose merges keep names distinct (C11_made_partial). False for duplicate names, which merge can produce (C11_delete_duplicate_refuted)."),
"C12": ("partial", "C12_delete_iff characterises success exactly. The property itself is false: C12_delete_refuted, C12_delete_equality_refuted."),
"C13": ("partial", "Proved when no removed interaction touches the variable; false otherwise (C13_fix_removed_refuted)."),
"C15": ("partial", "Rejection is proved. Acceptance is proved when the replacement names are free; false otherwise (C15_fix_again_refuted)."),
})
STATUS.update({
"C35": ("partial", "The exact energy after a conversion is proved for all scales. The property is false: the offset gets the wrong sign, so the energy moves by twice the offset change (C35_energy_refuted); with scales other than 1 even energy differences change (C35_scale_refuted). With unit scales energy differences are preserved."),
"C36": ("partial", "Proved for models with distinct interaction names (hence all histories whose merges keep names distinct) and all scales, in both directions. False for duplicate names (C36_duplicate_refuted)."),
"C37": ("partial", "False: C37_atomic_refuted, C37_clash_refuted. Sufficient conditions for success are proved."),
})
STATUS.update({
"C30": ("proved", "Energy and minimisers, for sets of binary variables whose labels contain no star (pyqubo forbids it)."),
"C31": ("proved", "Energy and minimisers, for sets of binary variables whose labels contain no star (pyqubo forbids it)."),
"C32": ("partial", "Energy and minimisers for disjoint sets. For overlapping sets to_model always raises ValueError (C32_overlap_raises_partial), so the property is false there (C32_equality_refuted)."),
"C33": ("proved", "For all three constraint classes and all orders of the sets, including the union set of EqualityConstraint."),
"C34": ("proved", "add and remove as union and difference with exact success conditions, for all histories, and as methods of the constraint objects (C34_edit, C34_edit_world)."),
})
STATUS.update({
"C16": ("partial", "Proved for all histories in which only variables of the model are deleted or fixed, none both, and no array is overwritten, shrunk or merged. False otherwise: C16_delete_fix_refuted, C16_delete_unknown_refuted, C16_recreate_refuted."),
"C17": ("partial", "Proved for tuples of the rank of the array. For a tuple of any rank C17_append_exact says what the array becomes, and C17_append_iff and C17_append_rank when nothing is lost. A shorter tuple silently reduces the rank and drops all variables (C17_append_rank_refuted)."),
"C18": ("proved", "For every array created by name and shape and for every history that registers arrays that way. Labels are also distinct across arrays if no name contains a bracket (refuted otherwise: C18_labels_clash_refuted)."),
"C38": ("partial", "Proved for models of the same type. For different types the energies add up to the conversion error of C35 (exact formula proved); false as stated: C38_merge_types_refuted."),
"C39": ("partial", "Proved for models whose arrays were registered by name and shape (C18). False for a foreign array, such as a slice (C39_foreign_array_refuted). C39_exact and C39_labels_exact say what each array and each label of the merged model is for every successful merge of proper models, with foreign arrays and of any types."),
"C40": ("partial", "Proved for models of the same type without a common constraint label, with the exact failure condition. False otherwise: C40_constraint_clash_refuted, C40_argument_refuted, C40_argument_failed_refuted. For models of any types C40_success_iff_partial says exactly when a merge returns, C40_exact_partial what each raising merge leaves, and C40_argument_iff when the argument stays as it is."),
"C41": ("partial", "Proved for rectangular tables. Attributes that an update added are not registered and get lost (C41_unregistered_refuted)."),
})
STATUS.update({
"C19": ("partial", "Energy and exact success condition for rectangular tables (C08). False for ragged ones (C19_ragged_refuted)."),
"C20": ("partial", "Energy for all QUBO models with constraints over distinct binary variables, and success. Equality constraints with overlapping sets raise (C32)."),
"C21": ("partial", "Energy up to one constant per constraint, hence energy differences; the constant is not zero, so the property is false (C21_exact_refuted)."),
"C22": ("partial", "Proved for rectangular tables with distinct names, if no removed interaction has a name ending with a parenthesis, as constraints generate."),
})
STATUS.update({
"C07": ("partial", "Marking, persistence, no add, no update, remove again: proved. After a conversion: proved if no removed interaction has a name ending with a parenthesis, as constraints generate (C22_clash_refuted otherwise)."),
"C14": ("partial", "Proved for variables that are in no constraint. With a constraint on the variable it is false (C14_constraint_refuted)."),
"C22": ("partial", "Proved for rectangular tables with distinct names, if no removed interaction has a name ending with a parenthesis, as constraints generate; false otherwise (C22_clash_refuted)."),
"C23": ("partial", "Proved for rectangular tables without constraints; variables, constraints, type and the sets of deleted and fixed variables survive in general. False with constraints (C23_retry_refuted): C23_left_qubo_partial and C23_left_ising_partial say exactly what is left, namely the interactions of the constraints before the one where the call stopped, whose penalties then count twice (C23_retry_qubo_partial, C23_retry_ising_partial)."),
"C24": ("partial", "Proved if the labels of all variables are distinct (C18); false otherwise (C24_clash_refuted). C24_exact gives both maps in all cases, C24_inverse_iff says exactly when they are inverse to each other."),
"C25": ("partial", "Exact characterisation proved, with constraints as well (C25_polynomial_constraints_partial). The property itself is false: C25_unregistered_refuted, C25_deleted_refuted, C25_fix_refuted."),
"C26": ("partial", "Uniqueness, non-zero and exact sums for rectangular tables of well-formed interactions (all histories), with constraints as well."),
"C27": ("partial", "Proved for rectangular tables of well-formed interactions, with constraints as well; that success does not depend on the order is proved without constraints."),
"C28": ("proved", "For both signs and all assignments."),
"C29": ("partial", "Energy: proved whenever to_polynomial succeeds (see C25). Decoding: proved if the labels of all variables are distinct (C18)."),
})

STATUS.update({
    "C42": ("partial", "For a labelled PyQUBO model the import succeeds on a model with its variables and no interactions, and adds its QUBO form for all bits and placeholder values; the PyQUBO model is unchanged if it has no placeholders. Refuted: with placeholders the coefficients are negated in place, so a second import differs; an offset set before is lost."),
})

STATUS.update({
    "C43": ("partial", "Proved for physical models in which every used variable has its own index (distinct labels, C18, and C25); this holds for conversions of logical models with distinct labels (C43_from_logical_partial)."),
    "C44": ("partial", "Proved under the hypothesis of C43, for every sweep."),
    "C45": ("partial", "Proved under the hypothesis of C43, for every state and index."),
    "C46": ("partial", "Proved under the hypothesis of C43."),
    "C47": ("partial", "Proved under the hypothesis of C43."),
    "C48": ("partial", "Proved under the hypothesis of C43."),
    "C49": ("partial", "Schedule, positivity and monotonicity proved. The bound by the reversing temperature fails in the first sweep if that temperature is below 1e-9 (C49_bounded_refuted)."),
    "C50": ("partial", "Proved under the hypothesis of C43."),
    "C51": ("partial", "Proved under the hypothesis of C43; exp is an arbitrary function."),
    "C52": ("partial", "Zero sweeps and wrong numbers proved. An empty list of initial states is ignored (C52_empty_refuted)."),
    "C53": ("partial", "Proved for Ising models. For QUBO models the initial states of the caller are changed in place (C53_qubo_refuted)."),
    "C54": ("partial", "Proved for seeds other than 0; seed 0 is ignored (C54_zero_refuted)."),
    "C55": ("partial", "Proved under the hypothesis of C43, for an exp that does not raise. False in general: C55_empty_reverse_refuted, C55_negative_sweeps_refuted, C55_missing_variable_refuted, C55_deleted_variable_refuted."),
    "C56": ("proved", "For all five entry points; a non-empty model is sent exactly once."),
    "C57": ("partial", "Proved for physical models keyed by ordered pairs, as every conversion of a rectangular table of well-formed interactions is (C57_from_logical_partial). dimod.ExactSolver is written out."),
    "C58": ("partial", "Decoding proved for distinct labels. The reported energy lacks the offset: exact formula proved, equality only for offset 0 (C58_offset_refuted). Without access data: UnboundLocalError (C58_unbound)."),
})

STATUS.update({
    "C59": ("proved", "Both modes, all lists of natural numbers. Sums above 2^53 (float halving) are not modelled."),
    "C60": ("proved", "Both modes."),
    "C61": ("proved", "Both modes, against all partitions."),
    "C62": ("partial", "C62_exact, for all lists: returned are exactly those optimal smaller parts that start with a positive number. So it is complete for at least two positive numbers; a single number is not answered (C62_single_refuted); with zeros parts are missing (C62_zero_refuted)."),
    "C63": ("partial", "Never raises or returns None; with enumerate_all the exact condition for a non-empty answer is proved, and it can be empty (C63_none_refuted)."),
    "C78": ("proved", "For all arguments of the modelled kinds (string label, number as strength, integer n)."),
})

STATUS.update({
    "C64": ("partial", "Proved for non-empty windows, a filter function that does not raise and an attenuation step that does not raise; map_fn, solve_fn and unmap_fn are arbitrary. False otherwise: C73_escapes."),
    "C65": ("partial", "Proved once a window has been processed. The first window is ignored if it is before -1 (C65_first_refuted)."),
    "C66": ("proved", "For all streams cut into non-empty intervals with bounds moving forward (sliding and fixed windows: C66_sliding), and all user functions."),
    "C67": ("partial", "Proved, with incoming for windows later than all before. A late element is never incoming (C67_late_refuted)."),
    "C68": ("partial", "Elements proved as a multiset; outgoing is always dropped, and complete if the dropped elements are older than the current ones. False in general: C68_twice_refuted, C68_outgoing_refuted."),
    "C69": ("partial", "False for window, delta and attenuation: an element is never incoming again (C69_never_again, C69_lost_refuted). With incremental it stays among the elements (C69_incremental_partial)."),
    "C70": ("partial", "Proved if the model read from the state is a copy, or a failing map_fn leaves it unchanged. False otherwise: C70_shared_refuted."),
    "C71": ("proved", "Elements with the same time are ordered by their index."),
    "C72": ("partial", "Proved for attribute columns of numbers with two different values; with equal values the scales stay (C72_equal). NaN: C72_nan_refuted."),
    "C73": ("partial", "Proved for a non-empty column of numbers if to_physical succeeds without placeholders. False in general: C73_refuted, C73_escapes."),
    "C74": ("proved", "For processing one element after the other."),
})

STATUS.update({
    "C75": ("partial", "Exact for all messages (C75_exact). The property holds for messages that do not end with a newline; one with a newline at the end is read as well (C75_newline_refuted). The digit limit of int() in newer Python versions is not modelled."),
    "C76": ("proved", "For numbers; other lengths behave as in C76_lengths. The integer functions used by append and merge are instances (C76_used)."),
    "C77": ("proved", ""),
    "C79": ("proved", ""),
})

STATUS.update({
    "C80": ("partial", "Proved for streams with increasing timestamps and indices, arbitrary window cuts moving forward (window, delta) or batches (incremental), and any solver. Numbers with equal timestamps do not interact (C80_equal_times_refuted)."),
    "C81": ("partial", "Proved for the same streams, exactly: a window yields an optimal partition if it has at least two numbers and none is zero, and fails otherwise. With the partial algorithm the answer may be wrong (C81_partial_refuted). Ties between samples are broken by the order of the samples."),
})

STATUS.update({
    "C19": ("partial", "Energy and exact success condition for rectangular tables, hence for all models made by public calls whose updates name registered attribute keys (C19_made_partial). False for ragged tables (C19_ragged_refuted)."),
    "C26": ("partial", "Uniqueness and non-zero coefficients for all models made by public calls (C26_made). Sums: for rectangular tables, with constraints as well, hence for histories whose updates name registered keys (C26_made_sums_partial); exact for every table in C26_sums_exact, which shows the property false for ragged ones (C26_ragged_refuted)."),
    "C29": ("proved", "Energy whenever to_polynomial succeeds (C25 says when), decoding for every conversion, also when two variables have the same label."),
    "C43": ("proved", "C43_reported_energy: for every physical model that to_physical returns after any public calls."),
    "C44": ("proved", "For every physical model that to_physical returns after any public calls, for every sweep."),
    "C45": ("proved", "For every physical model that to_physical returns after any public calls, every state and index."),
    "C46": ("proved", "For every physical model that to_physical returns after any public calls."),
    "C47": ("proved", "For every physical model that to_physical returns after any public calls."),
    "C48": ("proved", "For every physical model that to_physical returns after any public calls."),
    "C50": ("proved", "For every physical model that to_physical returns after any public calls."),
    "C51": ("proved", "For every physical model that to_physical returns after any public calls; exp is an arbitrary function."),
    "C52": ("partial", "Zero sweeps and wrong numbers proved for every physical model that to_physical returns after any public calls. An empty list of initial states is ignored (C52_empty_refuted)."),
    "C57": ("proved", "For every physical model that to_physical returns after any public calls. dimod.ExactSolver is written out; the order of its samples is not claimed."),
    "C58": ("partial", "Decoding proved for every conversion. The reported energy lacks the offset: exact formula proved, equality only for offset 0 (C58_offset_refuted). Without access data: UnboundLocalError (C58_unbound)."),
    "C82": ("partial", "Proved for histories whose updates name registered attribute keys, for models without constraints and for QUBO models with constraints. For Ising models with constraints the objective is shifted by a constant (C21), for ragged tables it is wrong (C19_ragged_refuted)."),
    "C83": ("partial", "Minimisers of the objective: proved for all models. Exact solver: for histories whose updates name registered attribute keys (C19_ragged_refuted otherwise)."),
})

STATUS.update({
    "C84": ("proved", "Model/Columns.lean keeps one list for each default column. Each call ends alike on columns and rows (C84_call, C84_merge, C84_toPhysical), so all theorems about rows hold for the columns. The attribute columns may get out of step (C08)."),
    "C85": ("partial", "Rejection with exception and unchanged state: for all models and arguments. That a call with valid arguments returns: remove on all models, add and update on rectangular tables, hence for histories whose updates name registered attribute keys (C85_update_made_partial); false otherwise (C85_ragged_refuted)."),
    "C86": ("partial", "Constraints, deleted and fixed labels, offset: proved. variables(array) checks only the first variable of the array: exact condition proved, the stated one refuted (C86_mixed_array_refuted)."),
    "C87": ("partial", "The meaning of ==, equal physical models, getters, and all calls except five: proved for all histories. delete_variable, to_ising, to_qubo: proved if they return; raising calls can leave different models (C87_raising_refuted). to_physical: the contents agree for models without constraints, the numbering does not (C87_numbering_refuted). merge: false (C87_merge_refuted)."),
})

STATUS.update({
    "C88": ("proved", "For the window and delta algorithms. That PyQUBO compiles quadratic expressions correctly is a hypothesis (CompilesAll); C88_compilable shows that it can be met. The geodesic distance is an arbitrary function."),
    "C89": ("partial", "Every window yields what minimising bits select (C89_answers). That is a shortest tour if some tour is shorter than 30 (3000 km); for two cities farther apart one of them is named twice (C89_far_refuted). Distances are nonnegative, and 0 from a place to itself."),
})
STATUS.update({
"C37": ("partial", "False: C37_atomic_refuted, C37_clash_refuted. C37_success_iff says exactly when a conversion succeeds."),
"C20": ("partial", "Energy for all QUBO models with constraints over distinct variables. C20_success_iff: success exactly if equality sets are disjoint and all placeholders are given (labels without `*`, no removed interaction with a name ending with a parenthesis)."),
"C21": ("partial", "False: a constant is added (C21_exact_refuted). C21_drift_partial gives the constant exactly (minus twice the average penalty), so energy differences are right. C21_success_iff: when the conversion succeeds, for labels without spaces."),
"C27": ("partial", "Proved for rectangular tables of well-formed interactions, with constraints as well. Success does not depend on the order either, with constraints if in Ising models no constraint label has a space."),
})
STATUS.update({
"C13": ("partial", "Proved when no removed interaction touches the variable; false otherwise (C13_fix_removed_refuted). C13_fix_exact gives the energy in all cases: removed interactions on the variable count again. Independence of the variable is proved without the restriction."),
"C15": ("partial", "Rejection is proved. C15_fix_iff says exactly when an admissible value is accepted: if it is 0 or the replacement names are free; otherwise not (C15_fix_again_refuted)."),
"C82": ("partial", "Proved for histories whose updates name registered attribute keys, for models without constraints and for QUBO models with constraints. For Ising models with constraints the objective is shifted by a constant (C21), given exactly by C82_annealing_ising_partial and C82_exact_ising_partial. For ragged tables it is wrong (C19_ragged_refuted)."),
"C83": ("partial", "Minimisers of the objective: proved for all models, QUBO and Ising. Exact solver: for histories whose updates name registered attribute keys (C19_ragged_refuted otherwise)."),
})
STATUS.update({
"C90": ("partial", "C90_as_copy: exactly like merging an equal second model. The energy doubles, and the call succeeds only without constraints. Names are not distinct afterwards (C90_names), and with constraints the call raises after doubling the interactions (C90_constraint_refuted)."),
"C91": ("partial", "A call does to its model what it does when alone (C91_call, C91_register, C91_merge), so every state is one that calls on separate models reach (C91_made). Other models keep their state under all calls except delete_variable, which changes exactly shared constraint objects (C91_delete); then the property is false (C91_independent_refuted)."),
})
STATUS.update({
"C92": ("proved", "For all sizes and all n, through add_interaction, to_physical and the exact local solver."),
"C93": ("proved", "For all sizes and all n, both model types. The constant that the conversion of Ising models adds (C21) is part of the optimal energy."),
"C94": ("proved", "All six models of the file."),
})
STATUS.update({
"C95": ("partial", "Model, partition and difference: proved for all sliding windows of at least two numbers and positive minimum scales. The first clause is false for windows with a single number (C95_succeeds_iff gives the exact condition). With a minimum scale below 1 the difference need not be least (C95_optimal_refuted), with 0 the window fails (C95_zero_scale_refuted)."),
})
STATUS.update({
"C96": ("proved", "For all texts whose lines have no newline at the end (ReadFromText strips them), windows delivered in the order of time. Beam's windows are written out in the model. C96_time: the time of a window is the last microsecond before its end."),
"C97": ("partial", "The first clause is false: C97_succeeds_iff gives the exact condition (no numbers, or neither their count nor the size is one more than a multiple of the period); C97_sample_refuted: the sample's options with six numbers. C97_answers: the weighted optima whenever it gets through."),
"C98": ("partial", "The full claim is false: over two cities with a round trip longer than 30 one is named twice (C98_far_refuted). C98_shortest_partial proves it for cities with a tour shorter than 30, as in C89. C98_answers says for all distances that every answer is read from bits minimising the Hamiltonian. C98_text_partial says what the texts of all answers of the running pipeline can be read as (as C122, with its conditions on names). Windows are delivered in the order of time."),
})
STATUS.update({
"C99": ("partial", "C99_reachable gives exactly the states a run can return: those that num_sweeps passes of single flips lead to, a spin being left alone only where turning it raises the energy. From a random initial state these are all states (C99_every_state). From a given one, in random order, every state that no single flip keeps or lowers the energy of (C99_optimum), and with two or more sweeps all states if there is such a state (C99_connected). In general false (C99_any_start_refuted: one sweep from an optimum never returns to it). Runs without reverse options and runs with both of them, the period being any number (rounded up)."),
"C100": ("proved", "The random numbers are rationals in [0, 1); exp is a parameter."),
})
STATUS.update({
"C101": ("partial", "C101_exact_partial says exactly what is written. The options are tested by presence, so the time is also written for False or None (C101_off_refuted), and a prefix or suffix that is None makes every window fail with TypeError (C101_none_refuted)."),
"C102": ("partial", "False: the message names the time of the window twice and never that of the last one (C102_refuted, for all times that are written differently). C102_text_partial gives the message."),
"C103": ("proved", "Window, delta and incremental algorithms with the exact solver; windows of at least two numbers, none zero."),
"C104": ("proved", "The Pub/Sub client is a library; other kinds of messages are arbitrary functions of the counter."),
})
STATUS.update({
"C105": ("partial", "Printing works exactly for tables with columns of equal length (C105_prints_partial), so for histories whose updates name registered attribute keys; false otherwise (C105_ragged_refuted). Boxes exactly if no array has a line end in its name (C105_box_partial, C105_name_refuted). C105_lines_partial, C105_physical_lines and C105_repr_shows give all lines and parts in order. The brackets of a printed physical model close before its offset (C105_physical_repr_refuted)."),
"C106": ("proved", "isinstance is an arbitrary relation."),
"C107": ("proved", "The clock is a rational; rounding of floats is not modelled."),
})

STATUS.update({
"C49": ("partial", "Schedule, positivity and monotonicity proved. The bound by the reversing temperature holds exactly if that temperature is at least 1e-9 (C49_bounded_exact); below, it fails in the first sweep (C49_bounded_refuted)."),
"C53": ("partial", "Proved for Ising models, and that a second call means the same (C53_again). For QUBO models the initial states of the caller are changed in place: every 0 becomes -1 (C53_qubo_exact), so they stay as they are exactly if no value is 0 (C53_unchanged_iff, C53_qubo_refuted)."),
"C55": ("partial", "False in general: C55_empty_reverse_refuted, C55_negative_sweeps_refuted, C55_missing_variable_refuted, C55_deleted_variable_refuted. C55_from_calls says exactly when solve succeeds, for every physical model that to_physical returns, initial states in the domain and an exp that never raises; C55_no_crash_partial allows an exp that raises for positive arguments, at temperatures that are not negative."),
"C64": ("partial", "C64_one: if nothing is raised there is one output. C64_escapes_exact: what map_fn, solve_fn and unmap_fn raise never escapes; an exception escapes exactly if the filter function raises, the attenuation step raises, or no element is left after there were some. So false in general: C73_escapes."),
"C65": ("proved", "C65_exact: a window is ignored exactly if it is before the last processed one, or before -1 if there is none (C65_first_refuted); nothing is changed or called then. C65_monotone_all: the stored time never decreases."),
"C67": ("partial", "C67_exact: incoming are exactly the elements of the window later than all before, the rest of the claim holds. A late element in a window in order is never incoming (C67_late_refuted)."),
"C68": ("partial", "Elements proved as a multiset. False in general: C68_twice_refuted, C68_outgoing_refuted. Exactly: C68_once_exact says when each is there once, C68_reported which dropped elements are reported (those earlier than all current ones)."),
})

STATUS.update({
"C81": ("partial", "Proved for the same streams, exactly: a window yields an optimal partition if it has at least two numbers and none is zero, and fails otherwise. With the partial algorithm the answer may be wrong (C81_partial_refuted; C108 says exactly what it is). Ties between samples are broken by the order of the samples."),
"C108": ("proved", "For batches of a stream with increasing timestamps and indices. C108_when assumes that the filter keeps no zeros, as in the sample; C108_model_exact does not."),
})

STATUS.update({
"C109": ("proved", "For every rounding with a bounded relative error, in particular to the nearest with 53 binary digits (C109_nearest); no overflow, no NaN. dimod adds up an energy in any order. C109_energy and C109_history take the spin coefficients as converted without error; C109_energy_spins takes whatever coefficients the conversion gave (C117 says which). Larger integers are not exact (C109_integers_refuted)."),
})
STATUS.update({
"C110": ("proved", "For every rounding with a bounded relative error; no overflow, no NaN. For models without placeholders and constraints (the arithmetic of both is in PyQUBO; C126 has constraints); the conversion from binary variables to spins in the solver is taken as exact here (C117 has it rounded). Without the limit on the weights, a term of the exact physical model may be missing (C110_vanish_refuted) and one may be left over (C110_appear_refuted), even with integer coefficients."),
})

STATUS.update({
"C14": ("partial", "Proved for variables that are in no constraint. With a constraint on the variable it is false (C14_constraint_refuted): C14_exact_qubo and C14_exact_ising give the physical model then, and C14_depends says that it depends on the variable exactly as the penalties do."),
"C16": ("partial", "C16_exact gives the returned number for every history that registers arrays by name and shape, if labels are distinct, and C16_size_iff says when it is right: no variable both deleted and fixed, and only variables of the model. False otherwise: C16_delete_fix_refuted, C16_delete_unknown_refuted, C16_recreate_refuted."),
})
STATUS.update({
"C111": ("proved", "In exact arithmetic, apart from exp, whose error is a parameter. The numbers for the acceptance are taken to be independent, even on the multiples of 1 / N (numpy: N = 2 ** 53) and independent of the orders of the variables; C111_annealing holds for each sequence of orders. C111_chain gives the exact distribution, C111_keeps is the bound for flips in any order, C111_annealing for whole runs, C111_total says that chances add up to 1."),
})
STATUS.update({
"C112": ("partial", "C112_run and C112_lines say what comes back in every case; along histories whose updates name only known attributes every query that pandas accepts is answered (C112_made_partial). Otherwise the columns can differ in length and every query raises (C112_ragged_refuted). A query is a condition on single lines; conditions that compare lines, and the parsing of queries by pandas, are left out."),
"C113": ("partial", "C113_by_name, C113_all and C113_arrays say what the getters return after any history without merge and variables(array). The variables are not only the alive ones as documented: delete_variable and fix_variable never change what is returned (C113_delete_fix, C113_alive_refuted)."),
})
STATUS.update({
"C114": ("proved", "For the window, delta and incremental algorithms; batches of the incremental algorithm must not share a timestamp with each other. The partition need not be optimal: C114_optimal_refuted. C114_agrees shows that with different timestamps this is the statement of C80."),
"C80": ("partial", "Proved for streams with increasing timestamps and indices, arbitrary window cuts moving forward (window, delta) or batches (incremental), and any solver. Numbers with equal timestamps do not interact (C80_equal_times_refuted); C114 gives the model then."),
})
STATUS.update({
"C115": ("partial", "All of it for the local and the D-Wave solver. SawatabiSolver and OptiganSolver never solve a model that was written by hand only, because its labels have no indices (C115_unindexed_refuted, C115_unindexed_error). If interactions are added to the result of to_physical, SawatabiSolver reports the right energies (C115_extended), and its preparation succeeds exactly if no new variable and no self-loop was added (C115_extended_iff). Coefficients are numbers, labels are strings."),
"C116": ("proved", "In exact arithmetic. If a model cannot be prepared (a used variable has no index) both raise, but maybe different exceptions; otherwise the exceptions are the same as well (C116_raises). C116_order is about logical models whose updates named known attributes only."),
})
STATUS.update({
"C117": ("proved", "For every rounding with a bounded relative error; no overflow, no underflow (halves and quarters are exact), no NaN. For Ising models nothing is converted (C117_ising). With 2^53 instead of 2^51 it is false, because the conversion rounds although all energies are floats (C117_integers_refuted)."),
})
STATUS.update({
"C07": ("partial", "Marking, persistence, no add, no update, remove again: proved. After a conversion: proved if no removed interaction has a name ending with a parenthesis, as constraints generate; false otherwise (C07_readd_refuted)."),
"C27": ("partial", "Proved for rectangular tables of well-formed interactions, hence for all histories whose updates name registered attribute keys (C27_made_partial), with constraints as well. Success does not depend on the order either, with constraints if in Ising models no constraint label has a space. For ragged tables the order matters (C27_ragged_refuted)."),
"C64": ("partial", "C64_one: if nothing is raised there is one output. C64_escapes_exact: what map_fn, solve_fn and unmap_fn raise never escapes; an exception escapes exactly if the filter function raises, the attenuation step raises, or no element is left after there were some. So false in general: C64_refuted, C73_escapes."),
"C82": ("partial", "Proved for histories whose updates name registered attribute keys, for models without constraints and for QUBO models with constraints. For Ising models with constraints the objective is shifted by a constant (C21), given exactly by C82_annealing_ising_partial and C82_exact_ising_partial. For ragged tables it is wrong (C82_ragged_refuted)."),
"C83": ("partial", "Minimisers of the objective: proved for all models, QUBO and Ising. Exact solver: for histories whose updates name registered attribute keys; false otherwise (C83_ragged_refuted)."),
})
STATUS.update({
"C72": ("partial", "Proved for attribute columns of numbers with two different values; with equal values the scales stay (C72_equal). With NaN (interactions without the attribute) it is false (C72_nan_refuted): if the first value is NaN all scales stay (C72_nan_first), otherwise NaN is passed over and becomes the scale of its interaction (C72_nan_later)."),
"C73": ("partial", "False in general: C73_refuted, C73_escapes. C73_exact gives the outcome in every case on rectangular tables, with the exception and the state, and C73_ok_iff says when the step succeeds: to_physical succeeds without placeholders, and the attribute is a column that is not empty and has only numbers and NaN, or one string throughout."),
})

STATUS.update({
    "C03": ("partial", "remove: proved. add and update: atomic on rectangular tables, so for histories whose updates name registered attribute keys; false on ragged tables (C03_add_atomic_refuted, C03_update_atomic_refuted). For every table it is proved which calls with acceptable arguments raise, and what they leave (C85_add_exact, C85_update_exact)."),
    "C85": ("partial", "Rejection with exception and unchanged state: for all models and arguments. That a call with valid arguments returns: remove on all models, add and update on rectangular tables; false otherwise (C85_ragged_refuted). For every model that calls can make it is proved exactly when add and update return (C85_add_made, C85_update_made): the attributes must also fit in their columns."),
})
STATUS.update({
"C87": ("partial", "The meaning of ==, equal physical models, getters, and all calls except five: proved for all histories. delete_variable, to_ising, to_qubo: proved if they return; raising calls can leave different models (C87_raising_refuted). to_physical: the contents and energies agree, with constraints as well (C87_physical_contents_partial), and one call returns if the other does (C87_physical_calls_partial, for distinct names); the numbering can differ (C87_numbering_refuted). merge: false (C87_merge_refuted)."),
})

STATUS.update({
"C20": ("partial", 'Energy for all QUBO models with constraints over distinct variables. C20_success_iff: success exactly if equality sets are disjoint and all placeholders are given (labels without `*`, no removed interaction with a name ending with a parenthesis). C20_success_exact says when a QUBO model converts for all labels and names.'),
"C22": ("partial", 'Proved for rectangular tables with distinct names, if no removed interaction has a name ending with a parenthesis, as constraints generate; false otherwise (C22_clash_refuted). C22_exact says exactly when the conversion succeeds and what it leaves, for every rectangular table with distinct names; C22_only_prunes_iff says when that is exactly the cleaned model.'),
})

STATUS.update({
"C118": ("proved", "Halving is exact here, a division of floats in the code. C118_nonnegative reduces numbers that are not negative to C59 to C63; C118_negative gives the outcome with a negative number: the empty part if the total is -1, 0 or 1, IndexError otherwise. With enumerate_all the list of partitions may be empty, as in C63."),
"C119": ("proved", "For coefficient, scale, timestamp, dirty, removed and name as keys; body, key, key_0, key_1 and interacts are left out. C119_timestamp_iff says when the step succeeds with the timestamps. With dirty nothing is attenuated on rectangular tables (C119_dirty), because to_physical has marked all interactions clean."),
})

STATUS.update({
"C120": ("partial", "The first half is false: a constructor keeps the set object it is given (C120_kept), so changing that set later changes the constraint (C120_alias_refuted). C120_mutate_iff says exactly which constraints change. The second half holds (C120_library): calls never change an existing set, and act on constraints as on values. C120_edit_fresh: an editing method gives the constraint a new set of its own. C120_careful: if constructors get copies, constraints are values whatever the caller does to their own sets."),
"C65": ("proved", "C65_exact: a window is ignored exactly if it is before the last processed one, or before -1 if there is none (C65_first_refuted); nothing is changed or called then. C65_start: a new state has no window behind it but those before -1. C65_monotone_all: the stored time never decreases."),
})

STATUS.update({
"C42": ("partial", "A successful import of a labelled PyQUBO model adds its QUBO form for all bits and placeholder values (C42_energy_partial). C42_success_iff says exactly when an import into any rectangular model returns, C42_raises_exact what a raising one leaves. The PyQUBO model stays as it is exactly if its coefficients are numbers (C42_argument_iff); otherwise they are negated in place, so a second import differs (C42_reimport_refuted, C42_reimport_exact_partial gives its energy). An offset set before is lost (C42_offset_refuted)."),
})

STATUS.update({
"C121": ("proved", "The function with the decorator is C121_profiled; C121_transparent, C121_time and C121_nested are about all functions. @wraps is not modelled."),
})

STATUS.update({
"C122": ("partial", "Proved for names that are not empty and have neither a line end nor '>' (how str writes the data is arbitrary). False otherwise: with a city named 'a -> b' two tours of the same cities have the same text (C122_arrow_refuted)."),
})
STATUS.update({
"C37": ("partial", "False: C37_atomic_refuted, C37_clash_refuted. C37_success_iff says exactly when a conversion succeeds, "
    "C37_left_toIsing and C37_left_toQubo say exactly what is left when it raises, and C37_retry says that a second call accepts that."),
})
STATUS.update({
"C12": ("partial", "C12_delete_iff characterises success exactly. The property itself is false: C12_delete_refuted, C12_delete_equality_refuted. C12_left says exactly what a deletion that raises leaves: the rows and the variable are gone, the constraints before the refusing one have let go of it, the others have not been reached; C12_retry says that repeating the call raises the same error and changes nothing more."),
"C15": ("partial", "Rejection is proved. C15_fix_iff says exactly when an admissible value is accepted: if it is 0 or the replacement names are free; otherwise not (C15_fix_again_refuted). C15_left says exactly what a fix that raises half way leaves, and C15_retry what repeating it does."),
})
STATUS.update({
"C99": ("partial", "C99_reachable gives exactly the states a run can return: those that num_sweeps passes of single flips lead to, a spin being left alone only where turning it raises the energy. From a random initial state these are all states (C99_every_state). From a given one, in random order: with at least twice as many sweeps as variables, all states (C99_random); with fewer, every state that no single flip keeps or lowers the energy of (C99_optimum), and with two or more sweeps all states if there is such a state (C99_connected). False for few sweeps (C99_any_start_refuted: one sweep from an optimum never returns to it) and in sequential order for any number of sweeps (C99_sequential_refuted: from one state of three spins that want to be alike, runs go back and forth between two states at every temperature). Runs without reverse options and runs with both of them, the period being any number (rounded up)."),
"C123": ("partial", "Proved in random order: C123_forgets (the initial state is forgotten at a geometric rate, given explicitly) and C123_boltzmann (the samples get near the Boltzmann distribution, up to the errors of the grid of the random numbers and of exp, as in C111). False in sequential order (C123_sequential_refuted): the samples from two initial states may have nothing in common after any number of sweeps. The orders and the numbers are taken to be independent and even."),
})
STATUS.update({
"C70": ("partial", "Proved if the model read from the state is a copy, or a failing map_fn leaves it unchanged. False otherwise: C70_shared_refuted. C70_exact says for every run what each call gets and what the states hold, shared or not: where the object in the state is passed, the changes of a failing map_fn stay in it."),
})
STATUS.update({
"C07": ("partial", "Marking, persistence, no add, no update, remove again: proved. After a conversion: proved if no removed interaction has a name ending with a parenthesis, as constraints generate; false otherwise (C07_readd_refuted). C07_readd_exact says exactly which removed names are free after any conversion."),
"C09": ("partial", "Proved for add, and for update with registered keys; false for an update with a new key (C09_update_new_key_refuted). C09_update_exact says for every table when the value given is read back (C09_update_iff: on rectangular tables exactly if the key is registered), and C09_update_others that what is read for other interactions stays as it is."),
})
STATUS.update({
"C11": ("partial", "Proved for models with distinct interaction names, so for all histories whose merges keep names distinct (C11_made_partial). False for duplicate names, which merge can produce (C11_delete_duplicate_refuted). C11_delete_exact says for every model what a deletion marks: for each interaction on the variable the first one with its name; C11_delete_clean_iff says when that leaves no active interaction on the variable. C11_constraints: the constraints that contain the variable are left with it set to 0 too (C11_objective_partial and C11_made_objective_partial for the sum with the interactions; C11_physical_partial and C11_physical_ising_partial up to the physical model; in an Ising model the penalties then have the spin at -1 while the interactions have it at 0)."),
})
STATUS.update({
"C124": ("partial", "Proved for variables whose labels contain no closing parenthesis; false otherwise (C124_paren_refuted). Conversely equal constraints can have different texts, as sets are written in the order of their iteration (C124_order_refuted)."),
})
STATUS.update({
"C36": ("partial", "Proved for models whose active interactions have distinct names (C36_qubo_active_partial, C36_ising_active_partial; hence all histories whose merges keep names distinct) and all scales, in both directions. False if active interactions share a name (C36_duplicate_refuted)."),
})

STATUS.update({
    "C125": ("proved", "C125_table and C125_table_all say what is printed, C125_readable and C125_readable_all that a text is the table of at most one list of numbers with one content, C125_aligned that the columns are aligned, C125_answer that the answer is the one without printing."),
})

STATUS.update({
    "C126": ("proved", "For every rounding with a bounded relative error; no overflow, no NaN, no placeholders; QUBO models (for Ising models the conversion of the models of constraints is not modelled in floats). C126_feasible needs the margin for the error: without it, a violated constraint can be optimal in floats (C126_feasible_refuted)."),
})

STATUS.update({
    "C127": ("partial", "C127_exact says what the aggregation makes of any list, C127_optigan what it says about the answer of an honest server. The count per vector needs distinct labels (C127_vectors; C127_made_partial for models made by calls); C127_distinct_iff: samples tell vectors apart exactly then; two arrays that share a label merge different vectors (C127_vectors_refuted), and with a server that reports different energies for equal vectors the lowest energy may be lost (C127_lost_refuted, C127_lossless_iff)."),
})

STATUS.update({
    "C128": ("partial", "C128_created_iff and C128_raises are exact for creation. False later: filter_fn, attenuation.key and attenuation.min_scale are read when a window is handled, and the KeyError escapes (C128_filter_refuted, C128_attenuation_refuted). With these options the pipelines are those of the other claims (C128_complete). What Beam does with a period that is not positive is not modelled."),
})

STATUS.update({
    "C129": ("proved", "C129_sent and C129_sent_iff say what is sent and when, C129_no_access what is raised otherwise, C129_compression that the flags change nothing, C129_refines that results and exceptions are those of the model behind C58 and C127, C129_text and C129_ascii that the JSON text can be read. That access data given to the constructor is used is not claimed: a token (or endpoint) given alone is ignored in favour of the configuration file, without a warning (C129_given_refuted). gzip and the format of numbers are arbitrary functions that can be undone."),
})

STATUS.update({
"C25": ("partial", "Exact characterisation proved, with constraints as well (C25_polynomial_constraints_partial). C25_made_partial: it holds for every model made by calls that mention only variables which the model has and which were not deleted (all calls but registering a foreign array, returning or raising). The property itself is false: C25_unregistered_refuted, C25_deleted_refuted, C25_fix_refuted."),
"C55": ("partial", "False in general: C55_empty_reverse_refuted, C55_negative_sweeps_refuted, C55_missing_variable_refuted, C55_deleted_variable_refuted. C55_from_calls says exactly when solve succeeds, for every physical model that to_physical returns, initial states in the domain and an exp that never raises; C55_made_partial: for models made by calls over their own variables (as in C25_made_partial) only the arguments of solve matter; C55_no_crash_partial allows an exp that raises for positive arguments, at temperatures that are not negative."),
})

STATUS.update({
    "C130": ("proved", "C130_optigan, C130_best, C130_strong. The histories are those of C25_made_partial; for others the conversion to a polynomial may raise (C25). The reported energies lack the offset (C58_offset_refuted), so only differences are those of the objective; the theorems say by how much exactly."),
})

STATUS.update({
    "C131": ("proved", "C131_access, C131_connect_fails, C131_sent, C131_dwave, C131_dwave_best, C131_local, C131_local_best. The constant is 0 for QUBO models and for models without constraints (see C21 for Ising models). That access data given to the constructor is used is not claimed: a token or endpoint alone, and embedding parameters that are not a dictionary, are ignored without a warning (C131_given_refuted). What the library does is a parameter."),
})

STATUS.update({
    "C132": ("proved", "C132_empty_iff, C132_succeeds_iff, C132_succeeds_exact, C132_optima, C132_optigan, C132_annealing, C132_feasible. Removed interactions whose names end in a parenthesis, labels with * in constraints and, for Ising models, labels with spaces are excluded, since generated names could coincide (C22_exact has the exact condition)."),
})

STATUS.update({
    "C133": ("partial", "C133_append, C133_update, C133_update_other, C133_to_ising, C133_to_qubo, C133_merge, C133_to_physical: all of it. fix_variable warns exactly as stated (C133_fix_exact, C133_fix_other), but the last clause is false for it: the variable already counts as fixed when the warning is raised (C133_fix_refuted)."),
})

STATUS.update({
    "C134": ("proved", "C134_topic, C134_subscription, C134_numbers, C134_publisher, C134_names, C134_neither, C134_not_text. That the service delivers each message once is assumed (Delivers); that Beam rejects some names, such as empty ones, is not modelled; UTF-8 is that of Lean's library."),
})

STATUS.update({
    "C135": ("proved", "C135_name, C135_message, C135_distinct, C135_cities, C135_no_json, C135_shown. Assumed: json.loads undoes json.dumps for objects with one pair of numbers (LoadsPairs), the service delivers each message once (Delivers), and for C135_distinct that different numbers are written differently (NumberFormat). Names are of ASCII letters, as drawn."),
})

STATUS.update({
    "C136": ("proved", "C136_numbers, C136_texts. What is drawn is an argument (texts without newlines, as only letters and digits are drawn)."),
})
