{"id": "C01", "title": "Interaction names stay unique", "statement": "At every point of every history of public LogicalModel calls, successful or raising, no two interactions held by the model have the same name, so a name given to update/remove/get_attributes denotes at most one interaction.", "quantifier": "all finite histories of public operations on a LogicalModel (any arguments, raising calls included)", "why_tests_cant": "A test fixes one history; uniqueness must survive every interleaving of add, fix, convert, merge and to_physical.", "anchors": ["sawatabi/model/logical_model.py:LogicalModel.add_interaction", "sawatabi/model/logical_model.py:LogicalModel._has_name", "sawatabi/model/logical_model.py:LogicalModel.merge", "sawatabi/model/logical_model.py:LogicalModel.fix_variable"]}
{"id": "C02", "title": "add_interaction adds exactly one energy term", "statement": "A successful add_interaction(target, coefficient=c, scale=s) changes the Hamiltonian by exactly -c*s*(product of the target's variables) for every assignment and every placeholder value, appends exactly one interaction and leaves all other interactions, variables, constraints and the offset as they were.", "quantifier": "all models, targets, names, coefficients, scales, attributes, assignments", "why_tests_cant": "The energy identity ranges over all assignments and all prior contents of the model.", "anchors": ["sawatabi/model/logical_model.py:LogicalModel.add_interaction", "sawatabi/model/logical_model.py:LogicalModel._get_interaction_info_from_target"]}
{"id": "C03", "title": "A raising add/update/remove changes nothing", "statement": "If add_interaction, update_interaction or remove_interaction raises, the model is exactly what it was before the call.", "quantifier": "all models, all argument combinations, all raising paths", "why_tests_cant": "Every raising path from every state has to be covered, not the handful of invalid calls in the tests.", "anchors": ["sawatabi/model/logical_model.py:LogicalModel.add_interaction", "sawatabi/model/logical_model.py:LogicalModel.update_interaction", "sawatabi/model/logical_model.py:LogicalModel.remove_interaction"]}
{"id": "C04", "title": "2-body targets are unordered and never degenerate", "statement": "The pairs (x, y) and (y, x) denote the same interaction (same default name, same key, smaller label first); a pair of two variables with equal labels is always rejected, and whether a target is accepted depends on nothing but the target.", "quantifier": "all pairs of variables and all models", "why_tests_cant": "Lexicographic ordering has to be right for every pair of labels.", "anchors": ["sawatabi/model/logical_model.py:LogicalModel._get_interaction_info_from_target"]}
{"id": "C05", "title": "update_interaction changes only what it was given", "statement": "A successful update by name changes, in the interaction of that name, exactly the given coefficient/scale/attributes, plus its timestamp and dirty mark; name, key, body, removed mark and every other interaction stay the same.", "quantifier": "all models with unique names, all names, all subsets of optional arguments", "why_tests_cant": "A frame condition over all other interactions and all combinations of optional arguments.", "anchors": ["sawatabi/model/logical_model.py:LogicalModel.update_interaction"]}
{"id": "C06", "title": "update_interaction by target inserts when absent", "statement": "update_interaction(target) on a target whose default name is absent behaves as add_interaction with the same coefficient, scale, attributes and timestamp (0.0 and 1.0 by default); by name it raises KeyError instead.", "quantifier": "all models, targets and arguments", "why_tests_cant": "Equivalence of two code paths for all states and arguments.", "anchors": ["sawatabi/model/logical_model.py:LogicalModel.update_interaction"]}
{"id": "C07", "title": "Removed names are reserved until the next conversion", "statement": "After remove_interaction, the name can be neither added nor updated (ValueError); removing again is harmless; after the next successful to_physical the interaction is gone and the name can be added again.", "quantifier": "all models, names and intermediate histories without to_physical", "why_tests_cant": "A temporal property over all histories between removal and conversion.", "anchors": ["sawatabi/model/logical_model.py:LogicalModel.remove_interaction", "sawatabi/model/logical_model.py:LogicalModel.to_physical", "sawatabi/model/logical_model.py:LogicalModel._is_removed"]}
{"id": "C08", "title": "Interaction table stays rectangular", "statement": "In every reachable state every column of the interaction table, attribute columns included, has one entry per interaction, so select_interaction, delete_variable and to_physical never fail or mix up rows because of ragged columns.", "quantifier": "all finite histories of public operations", "why_tests_cant": "The defect only shows in particular interleavings of update and add.", "anchors": ["sawatabi/model/logical_model.py:LogicalModel.add_interaction", "sawatabi/model/logical_model.py:LogicalModel.update_interaction", "sawatabi/model/logical_model.py:LogicalModel._update_interactions_dataframe_from_arrays"]}
{"id": "C09", "title": "Attributes read back what was written", "statement": "After add_interaction or update_interaction with attributes {k: v}, get_attribute returns v for that interaction and key, and attribute values of other interactions are unaffected by any operation on this one.", "quantifier": "all models, interactions, keys, values and later operations on other interactions", "why_tests_cant": "Get-after-set and non-interference over all histories.", "anchors": ["sawatabi/model/logical_model.py:LogicalModel.get_attributes", "sawatabi/model/logical_model.py:LogicalModel.get_attribute", "sawatabi/model/logical_model.py:LogicalModel.update_interaction"]}
{"id": "C10", "title": "Timestamps do not go backwards on update", "statement": "update_interaction without an explicit timestamp stamps the interaction with the time of the call, so a later update never makes an interaction look older than it was.", "quantifier": "all call times and all clocks", "why_tests_cant": "Depends on when the default argument is evaluated relative to all later calls.", "anchors": ["sawatabi/model/logical_model.py:LogicalModel.update_interaction", "sawatabi/utils/time.py:current_time"]}
{"id": "C11", "title": "delete_variable removes exactly the variable's terms", "statement": "A successful delete_variable(v) leaves the Hamiltonian with v set to 0: every interaction touching v is gone and every other interaction still counts; afterwards the energy no longer depends on v.", "quantifier": "all models, variables, assignments", "why_tests_cant": "Quantifies over all interaction tables and assignments.", "anchors": ["sawatabi/model/logical_model.py:LogicalModel.delete_variable", "sawatabi/model/logical_model.py:LogicalModel.select_interactions_by_variable"]}
{"id": "C12", "title": "delete_variable works or leaves the model alone", "statement": "delete_variable on a variable of the model succeeds whatever constraints the model carries, or raises without changing the model.", "quantifier": "all models with any set of constraints", "why_tests_cant": "Depends on every combination of constraints, including ones not mentioning the variable.", "anchors": ["sawatabi/model/logical_model.py:LogicalModel.delete_variable", "sawatabi/model/constraint/n_hot_constraint.py:NHotConstraint.remove_variable", "sawatabi/model/constraint/equality_constraint.py:EqualityConstraint"]}
{"id": "C13", "title": "fix_variable substitutes the value", "statement": "After a successful fix_variable(v, a) the energy of every assignment equals the energy before the call of that assignment with v := a, and no longer depends on v.", "quantifier": "all models, variables, admissible values, assignments", "why_tests_cant": "An identity over all models and assignments; histories with removed or already-fixed interactions matter.", "anchors": ["sawatabi/model/logical_model.py:LogicalModel.fix_variable"]}
{"id": "C14", "title": "fix_variable also fixes the variable in constraints", "statement": "After fix_variable(v, a), v does not appear among the variables of the next physical model, also when v takes part in a constraint.", "quantifier": "all models and constraints", "why_tests_cant": "All combinations of constraints and fixed variables.", "anchors": ["sawatabi/model/logical_model.py:LogicalModel.fix_variable", "sawatabi/model/logical_model.py:LogicalModel.to_physical"]}
{"id": "C15", "title": "fix_variable accepts exactly the admissible values", "statement": "fix_variable raises ValueError exactly for values outside {1,-1} (Ising) or {1,0} (QUBO), and then changes nothing.", "quantifier": "all models and all values", "why_tests_cant": "All values, not a sample.", "anchors": ["sawatabi/model/logical_model.py:LogicalModel.fix_variable"]}
{"id": "C16", "title": "get_size counts the alive variables", "statement": "get_size() equals the number of the model's variables that are neither deleted nor fixed.", "quantifier": "all histories of variables/append/delete_variable/fix_variable", "why_tests_cant": "Overlaps between deleted and fixed variables occur only in particular histories.", "anchors": ["sawatabi/model/logical_model.py:LogicalModel.get_size", "sawatabi/model/logical_model.py:LogicalModel.get_all_size"]}
{"id": "C17", "title": "append grows arrays and keeps existing variables", "statement": "append(name, d) yields an array whose shape is the elementwise sum of the old shape and d; for non-negative d of the same rank every old variable label is still present; for an unknown name it creates the array.", "quantifier": "all models, names, shapes", "why_tests_cant": "All shapes and ranks.", "anchors": ["sawatabi/model/logical_model.py:LogicalModel.append", "sawatabi/utils/functions.py:Functions.elementwise_add"]}
{"id": "C18", "title": "Variable labels are distinct and complete", "statement": "An array of shape (d1,...,dk) has exactly d1*...*dk labels, all distinct, one per index tuple, and get_all_size is their total number.", "quantifier": "all names and shapes", "why_tests_cant": "All ranks and sizes.", "anchors": ["sawatabi/model/logical_model.py:LogicalModel.variables", "sawatabi/model/logical_model.py:LogicalModel.get_all_size", "sawatabi/utils/functions.py:Functions._flatten"]}
{"id": "C19", "title": "to_physical preserves the energy (no constraints)", "statement": "For a model without constraints, a successful to_physical(placeholder) returns a physical model whose energy equals the logical energy, under those placeholder values, of every assignment: removed interactions do not count, interactions with the same key add up, coefficient and scale multiply.", "quantifier": "all models without constraints, placeholder dictionaries, assignments", "why_tests_cant": "An identity over all assignments and all interaction tables.", "anchors": ["sawatabi/model/logical_model.py:LogicalModel.to_physical"]}
{"id": "C20", "title": "to_physical adds the constraint penalties (QUBO)", "statement": "For a QUBO model, the physical energy equals the logical energy plus, for each constraint, its penalty polynomial, for every binary assignment.", "quantifier": "all QUBO models, constraint dictionaries, assignments", "why_tests_cant": "All constraint sets and assignments.", "anchors": ["sawatabi/model/logical_model.py:LogicalModel.to_physical", "sawatabi/model/constraint/n_hot_constraint.py:NHotConstraint.to_model", "sawatabi/model/constraint/equality_constraint.py:EqualityConstraint.to_model", "sawatabi/model/constraint/zero_or_one_hot_constraint.py:ZeroOrOneHotConstraint.to_model"]}
{"id": "C21", "title": "to_physical adds the constraint penalties (Ising)", "statement": "For an Ising model, the physical energy of spins s equals the logical energy plus the penalties at x=(s+1)/2, so that the constraint is imposed on the spins.", "quantifier": "all Ising models, constraint dictionaries, spin assignments", "why_tests_cant": "All constraint sets and assignments; goes through an implicit QUBO-to-Ising conversion.", "anchors": ["sawatabi/model/logical_model.py:LogicalModel.to_physical", "sawatabi/model/logical_model.py:LogicalModel.to_ising"]}
{"id": "C22", "title": "to_physical only prunes the logical model", "statement": "A successful to_physical leaves the logical model unchanged except that logically removed interactions are dropped and the rest are marked clean; constraints are not baked in; calling it again returns an equal physical model.", "quantifier": "all models and placeholder dictionaries", "why_tests_cant": "Idempotence over all models, with deep-copied state restored after merging constraints.", "anchors": ["sawatabi/model/logical_model.py:LogicalModel.to_physical"]}
{"id": "C23", "title": "A failed to_physical leaves the model usable", "statement": "If to_physical raises (for instance because a placeholder is missing or a constraint is invalid), the logical model is unchanged, so that a corrected retry gives the same result as if the failed call had not happened.", "quantifier": "all models, placeholder dictionaries and raising points", "why_tests_cant": "Crash points inside the conversion.", "anchors": ["sawatabi/model/logical_model.py:LogicalModel.to_physical", "sawatabi/model/logical_model.py:LogicalModel.merge"]}
{"id": "C24", "title": "Variable indices of a physical model form a bijection", "statement": "The label->index and index->label maps of a physical model are mutually inverse bijections between the labels with an index and 0..n-1, numbered in the order of the logical variables.", "quantifier": "all models", "why_tests_cant": "All shapes, deletions and interaction tables.", "anchors": ["sawatabi/model/logical_model.py:LogicalModel.to_physical"]}
{"id": "C25", "title": "Every variable of a physical model has an index", "statement": "Every variable that occurs in an interaction of the physical model has an index, so that to_polynomial and SawatabiSolver.solve never fail with KeyError on a model produced by to_physical.", "quantifier": "all models reachable by public calls", "why_tests_cant": "Fails only for particular histories (deleted or unregistered variables).", "anchors": ["sawatabi/model/logical_model.py:LogicalModel.to_physical", "sawatabi/model/physical_model.py:PhysicalModel.to_polynomial", "sawatabi/solver/sawatabi_solver.py:SawatabiSolver.solve"]}
{"id": "C26", "title": "Physical models carry no zero or duplicate terms", "statement": "The physical model has at most one coefficient per variable and per unordered pair, each the sum over the active interactions of that key, and exactly the keys whose sum is non-zero.", "quantifier": "all models", "why_tests_cant": "All ways in which terms may cancel.", "anchors": ["sawatabi/model/logical_model.py:LogicalModel.to_physical"]}
{"id": "C27", "title": "The order of interactions does not matter", "statement": "Two models whose interactions are permutations of each other convert to physical models with the same coefficients, offset and energies.", "quantifier": "all permutations", "why_tests_cant": "All permutations of all tables.", "anchors": ["sawatabi/model/logical_model.py:LogicalModel.to_physical"]}
{"id": "C28", "title": "to_bqm has the energy of the model", "statement": "The BQM returned by to_bqm() has, for every assignment, the energy of the physical model, with sign and offset as documented (H = offset - sum h x - sum J x x).", "quantifier": "all physical models and assignments", "why_tests_cant": "All assignments.", "anchors": ["sawatabi/model/physical_model.py:PhysicalModel.to_bqm"]}
{"id": "C29", "title": "to_polynomial has the energy of the model", "statement": "For binary assignments, the Optigan polynomial evaluated on the index-encoded assignment equals the energy of the physical model minus its offset, and decoding by index recovers the labelled assignment.", "quantifier": "all physical models produced by to_physical and all binary assignments", "why_tests_cant": "All assignments and index maps.", "anchors": ["sawatabi/model/physical_model.py:PhysicalModel.to_polynomial", "sawatabi/solver/optigan_solver.py:OptiganSolver.solve"]}
{"id": "C30", "title": "N-hot constraint penalty", "statement": "The model of NHotConstraint(V, n, strength) has energy strength*((sum V - n)^2 - n^2) for binary assignments; for positive strength and n <= |V| its minimisers are exactly the assignments with n ones.", "quantifier": "all variable sets, n, strengths and binary assignments", "why_tests_cant": "All sets and assignments.", "anchors": ["sawatabi/model/constraint/n_hot_constraint.py:NHotConstraint.to_model"]}
{"id": "C31", "title": "Zero-or-one-hot constraint penalty", "statement": "The model of ZeroOrOneHotConstraint(V, strength) has energy strength*S*(S-1) with S the number of ones; for positive strength its minimisers are exactly the assignments with at most one 1.", "quantifier": "all variable sets, strengths and binary assignments", "why_tests_cant": "All sets and assignments.", "anchors": ["sawatabi/model/constraint/zero_or_one_hot_constraint.py:ZeroOrOneHotConstraint.to_model"]}
{"id": "C32", "title": "Equality constraint penalty", "statement": "The model of EqualityConstraint(V1, V2, strength) has energy strength*(sum V1 - sum V2)^2 for binary assignments; for positive strength its minimisers are exactly the assignments with equal sums.", "quantifier": "all pairs of variable sets, strengths and binary assignments", "why_tests_cant": "All sets, overlapping ones included, and all assignments.", "anchors": ["sawatabi/model/constraint/equality_constraint.py:EqualityConstraint.to_model"]}
{"id": "C33", "title": "Set iteration order is irrelevant for constraints", "statement": "Whatever order the constraint's variable set is iterated in, to_model raises in the same cases and yields the same interactions up to order.", "quantifier": "all iteration orders of all sets", "why_tests_cant": "Python's set order depends on hashing; a test sees one order.", "anchors": ["sawatabi/model/constraint/n_hot_constraint.py:NHotConstraint.to_model", "sawatabi/model/constraint/equality_constraint.py:EqualityConstraint.to_model", "sawatabi/model/constraint/zero_or_one_hot_constraint.py:ZeroOrOneHotConstraint.to_model"]}
{"id": "C34", "title": "Constraint variable sets behave as sets", "statement": "add_variable/remove_variable behave as union and difference; removing an absent variable raises and changes nothing; duplicates have no effect.", "quantifier": "all histories of add/remove on a constraint", "why_tests_cant": "All histories.", "anchors": ["sawatabi/model/constraint/n_hot_constraint.py:NHotConstraint.add_variable", "sawatabi/model/constraint/n_hot_constraint.py:NHotConstraint.remove_variable", "sawatabi/model/constraint/abstract_constraint.py:AbstractConstraint._check_variables_and_to_set"]}
{"id": "C35", "title": "to_ising / to_qubo preserve the energy", "statement": "Converting the model type preserves the energy of corresponding assignments (x = (s+1)/2).", "quantifier": "all models with numeric coefficients, all assignments", "why_tests_cant": "All models, scales and assignments.", "anchors": ["sawatabi/model/logical_model.py:LogicalModel.to_ising", "sawatabi/model/logical_model.py:LogicalModel.to_qubo"]}
{"id": "C36", "title": "to_ising and to_qubo are inverse on energies", "statement": "to_ising followed by to_qubo, and conversely, gives back the energy of every assignment exactly, whatever the scales.", "quantifier": "all models with numeric coefficients, all assignments", "why_tests_cant": "All models, scales and assignments.", "anchors": ["sawatabi/model/logical_model.py:LogicalModel.to_ising", "sawatabi/model/logical_model.py:LogicalModel.to_qubo"]}
{"id": "C37", "title": "Type conversion is total or atomic", "statement": "to_ising / to_qubo either complete or leave the model unchanged.", "quantifier": "all models, placeholder coefficients and clocks included", "why_tests_cant": "Raising points inside the conversion loop; clock resolution.", "anchors": ["sawatabi/model/logical_model.py:LogicalModel.to_ising", "sawatabi/model/logical_model.py:LogicalModel.to_qubo", "sawatabi/model/logical_model.py:LogicalModel.update_interaction"]}
{"id": "C38", "title": "merge adds energies", "statement": "After a successful a.merge(b), the energy of a is the sum of the two energies (of corresponding assignments if the types differ), for every assignment.", "quantifier": "all pairs of models and assignments", "why_tests_cant": "All pairs of tables, including clashing names.", "anchors": ["sawatabi/model/logical_model.py:LogicalModel.merge"]}
{"id": "C39", "title": "merge takes the elementwise maximum of shapes", "statement": "After a successful merge, the model has exactly the variables of both; an array in both has the elementwise maximum shape, and no label of either model is lost.", "quantifier": "all pairs of variable dictionaries", "why_tests_cant": "All shapes and ranks.", "anchors": ["sawatabi/model/logical_model.py:LogicalModel.merge", "sawatabi/utils/functions.py:Functions.elementwise_max", "sawatabi/utils/functions.py:Functions.elementwise_sub"]}
{"id": "C40", "title": "A failed merge leaves both models unchanged", "statement": "If merge raises, neither the model nor its argument has changed; and a successful merge does not change its argument.", "quantifier": "all pairs of models and raising points", "why_tests_cant": "Raising points inside merge.", "anchors": ["sawatabi/model/logical_model.py:LogicalModel.merge"]}
{"id": "C41", "title": "merge keeps constraints and attributes", "statement": "After a successful merge the constraints are the disjoint union of both, and every interaction keeps its registered attribute values.", "quantifier": "all pairs of models", "why_tests_cant": "All pairs of tables and attribute columns.", "anchors": ["sawatabi/model/logical_model.py:LogicalModel.merge"]}
{"id": "C42", "title": "from_pyqubo imports the expression's energy", "statement": "from_pyqubo on a QUBO model without prior interactions gives a model whose energy equals the PyQUBO model's energy for every binary assignment and placeholder value, and does not change the PyQUBO model.", "quantifier": "all compiled PyQUBO models, placeholders, assignments", "why_tests_cant": "All expressions and assignments; aliasing of coefficient objects.", "anchors": ["sawatabi/model/logical_model.py:LogicalModel.from_pyqubo"]}
{"id": "C43", "title": "Reported energy is the energy of the sample", "statement": "Every energy returned by SawatabiSolver.solve equals the physical model's energy of the accompanying sample, for every random sequence, schedule and initial state.", "quantifier": "all models, seeds/random sequences, schedules, initial states (exact arithmetic)", "why_tests_cant": "All random sequences; the energy is maintained incrementally over all flips.", "anchors": ["sawatabi/solver/sawatabi_solver.py:SawatabiSolver.solve", "sawatabi/solver/sawatabi_solver.py:SawatabiSolver.annealing", "sawatabi/solver/sawatabi_solver.py:SawatabiSolver.calc_energy_diff"]}
{"id": "C44", "title": "Energy history is the energy along the run", "statement": "energy_history[k] is the negated annealing energy of the state at the start of sweep k for every k, consistently shifted by the same constant from the returned energy.", "quantifier": "all models, random sequences and sweeps", "why_tests_cant": "All runs.", "anchors": ["sawatabi/solver/sawatabi_solver.py:SawatabiSolver.annealing"]}
{"id": "C45", "title": "Flip difference is exact", "statement": "The difference used to accept a flip is exactly the change in energy caused by the flip, for every state and variable.", "quantifier": "all models, states, variables", "why_tests_cant": "All states.", "anchors": ["sawatabi/solver/sawatabi_solver.py:SawatabiSolver.calc_energy_diff"]}
{"id": "C46", "title": "Samples are well-formed", "statement": "Each sample assigns to every active variable, and to nothing else, a value of the model's domain ({-1,1} for Ising, {0,1} for QUBO).", "quantifier": "all models, random sequences and initial states in the domain", "why_tests_cant": "All runs.", "anchors": ["sawatabi/solver/sawatabi_solver.py:SawatabiSolver.solve", "sawatabi/solver/sawatabi_solver.py:SawatabiSolver.annealing"]}
{"id": "C47", "title": "The pre-drawn random numbers suffice", "statement": "The annealing never runs past the num_sweeps * num_variables random numbers drawn beforehand, whatever is accepted.", "quantifier": "all runs", "why_tests_cant": "The worst case over all accept/reject sequences.", "anchors": ["sawatabi/solver/sawatabi_solver.py:SawatabiSolver.annealing", "sawatabi/solver/sawatabi_solver.py:SawatabiSolver.is_acceptable"]}
{"id": "C48", "title": "Forward temperature schedule", "statement": "Without reverse_options the temperature of sweep k is initial_temperature * cooling_rate^k, for every k; it is positive when both parameters are.", "quantifier": "all sweeps and parameters (exact arithmetic)", "why_tests_cant": "All k and parameters.", "anchors": ["sawatabi/solver/sawatabi_solver.py:SawatabiSolver.annealing"]}
{"id": "C49", "title": "Reverse temperature schedule", "statement": "With reverse_options, the temperature rises from 1e-9 as R*(1 - cooling_rate^k) for 1 <= k <= reverse_period and then falls geometrically; it is positive for 0 < cooling_rate < 1 and R > 0, and never exceeds R for reverse_period >= 1.", "quantifier": "all sweeps, periods and parameters (exact arithmetic)", "why_tests_cant": "All k and parameters.", "anchors": ["sawatabi/solver/sawatabi_solver.py:SawatabiSolver.annealing"]}
{"id": "C50", "title": "Statistics have one entry per sweep", "statement": "energy, temperature and acceptance histories have num_sweeps entries and every acceptance count is at most the number of variables.", "quantifier": "all runs", "why_tests_cant": "All runs.", "anchors": ["sawatabi/solver/sawatabi_solver.py:SawatabiSolver.annealing"]}
{"id": "C51", "title": "Downhill moves are always taken, greedy runs never climb", "statement": "A flip with non-positive difference is always accepted, so if no uphill flip is accepted the returned energy is at most the initial energy.", "quantifier": "all runs", "why_tests_cant": "All runs.", "anchors": ["sawatabi/solver/sawatabi_solver.py:SawatabiSolver.is_acceptable", "sawatabi/solver/sawatabi_solver.py:SawatabiSolver.annealing"]}
{"id": "C52", "title": "Initial states are honoured", "statement": "With num_sweeps = 0 the samples are exactly the given initial states; a wrong number of initial states is rejected; reads are independent of each other's states.", "quantifier": "all models and initial states", "why_tests_cant": "All models and states.", "anchors": ["sawatabi/solver/sawatabi_solver.py:SawatabiSolver.solve"]}
{"id": "C53", "title": "solve does not change its arguments", "statement": "SawatabiSolver.solve does not modify the caller's initial_states, and calling it again with the same objects means the same problem.", "quantifier": "all models and initial states", "why_tests_cant": "Aliasing: mutation of caller-owned dictionaries.", "anchors": ["sawatabi/solver/sawatabi_solver.py:SawatabiSolver.solve"]}
{"id": "C54", "title": "Every seed is reproducible", "statement": "Two solve calls with the same arguments and the same integer seed give the same samples and energies.", "quantifier": "all integer seeds", "why_tests_cant": "All seeds, including falsy ones.", "anchors": ["sawatabi/solver/sawatabi_solver.py:SawatabiSolver.solve"]}
{"id": "C55", "title": "Valid options never crash the annealing", "statement": "If solve's argument checks pass for a model produced by to_physical, the annealing does not raise (no KeyError, IndexError or ZeroDivisionError).", "quantifier": "all argument combinations that pass validation", "why_tests_cant": "All argument combinations.", "anchors": ["sawatabi/solver/sawatabi_solver.py:SawatabiSolver.solve", "sawatabi/solver/sawatabi_solver.py:SawatabiSolver.annealing"]}
{"id": "C56", "title": "Empty models are rejected before sampling", "statement": "Every solver raises ValueError for a physical model without interactions and does so before contacting any sampler.", "quantifier": "all empty physical models, all solvers", "why_tests_cant": "All solvers and arguments.", "anchors": ["sawatabi/solver/local_solver.py:LocalSolver.solve", "sawatabi/solver/dwave_solver.py:DWaveSolver.solve", "sawatabi/solver/optigan_solver.py:OptiganSolver.solve", "sawatabi/solver/sawatabi_solver.py:SawatabiSolver.solve"]}
{"id": "C57", "title": "Exact local solver returns a ground state", "statement": "LocalSolver(exact=True) returns every assignment of the active variables with its model energy, so its best sample minimises the physical energy.", "quantifier": "all physical models", "why_tests_cant": "All models and assignments.", "anchors": ["sawatabi/solver/local_solver.py:LocalSolver.solve"]}
{"id": "C58", "title": "Optigan samples are decoded to the right variables with model energies", "statement": "The sample returned for an Optigan answer assigns the i-th spin to the variable with index i, and the reported energy is the physical model's energy of that sample.", "quantifier": "all QUBO physical models and all server answers that report the polynomial's value", "why_tests_cant": "All models and answers.", "anchors": ["sawatabi/solver/optigan_solver.py:OptiganSolver.solve", "sawatabi/model/physical_model.py:PhysicalModel.to_polynomial"]}
{"id": "C59", "title": "NPP: the two partitions are complementary", "statement": "Every returned pair of index lists splits range(n) into two disjoint, covering parts.", "quantifier": "all lists of non-negative integers, both modes", "why_tests_cant": "All inputs.", "anchors": ["sawatabi/utils/npp.py:solve_npp_with_dp"]}
{"id": "C60", "title": "NPP: the answer flag is exact", "statement": "solve_npp_with_dp returns True exactly if some subset has half the total sum, and then every returned partition is balanced.", "quantifier": "all lists of non-negative integers", "why_tests_cant": "Needs all subsets of all inputs.", "anchors": ["sawatabi/utils/npp.py:solve_npp_with_dp"]}
{"id": "C61", "title": "NPP: the difference is minimal", "statement": "Each returned partition has the minimal difference of sums among all partitions of the input.", "quantifier": "all lists of non-negative integers and all partitions", "why_tests_cant": "Needs all subsets of all inputs.", "anchors": ["sawatabi/utils/npp.py:solve_npp_with_dp"]}
{"id": "C62", "title": "NPP: enumerate_all returns all optimal partitions", "statement": "With enumerate_all, every returned list is an optimal part, none is returned twice, and every index set with the optimal smaller sum is returned.", "quantifier": "all lists of positive integers", "why_tests_cant": "Needs all subsets of all inputs.", "anchors": ["sawatabi/utils/npp.py:solve_npp_with_dp"]}
{"id": "C63", "title": "NPP: always answers", "statement": "For every list of non-negative integers the function returns at least one partition and never raises.", "quantifier": "all lists of non-negative integers, both modes", "why_tests_cant": "All inputs, edge cases included.", "anchors": ["sawatabi/utils/npp.py:solve_npp_with_dp"]}
{"id": "C64", "title": "Exactly one output per window", "statement": "Processing a window yields exactly one output element, whatever map_fn, solve_fn or unmap_fn do.", "quantifier": "all window sequences and all user functions", "why_tests_cant": "All user functions and failure combinations.", "anchors": ["sawatabi/algorithm/abstract_algorithm.py:AbstractAlgorithm.SolveDoFn.process"]}
{"id": "C65", "title": "Stale windows are ignored", "statement": "A window older than the last processed one changes no state and calls no user function; the stored timestamp never decreases.", "quantifier": "all window sequences in any order", "why_tests_cant": "All arrival orders.", "anchors": ["sawatabi/algorithm/abstract_algorithm.py:AbstractAlgorithm.SolveDoFn.process"]}
{"id": "C66", "title": "incoming/outgoing are the difference of consecutive windows", "statement": "For window, delta and attenuation algorithms on a stream cut into intervals processed in order, outgoing is exactly the elements of the previous window not in the current one, and incoming the converse; replaying them from the start reconstructs the current window.", "quantifier": "all streams, window sizes and periods", "why_tests_cant": "All streams.", "anchors": ["sawatabi/algorithm/abstract_algorithm.py:AbstractAlgorithm.SolveDoFn.process"]}
{"id": "C67", "title": "Incremental never forgets", "statement": "With the incremental algorithm the elements passed to map_fn are all elements received so far in time order, outgoing is always empty, and incoming is exactly the current window's elements when windows arrive in time order.", "quantifier": "all window sequences", "why_tests_cant": "All histories.", "anchors": ["sawatabi/algorithm/abstract_algorithm.py:AbstractAlgorithm.SolveDoFn.process"]}
{"id": "C68", "title": "Partial: dropped elements are reported", "statement": "With the partial algorithm the elements are those retained by filter_fn plus the current window, each once, and every element that is dropped is reported in outgoing.", "quantifier": "all window sequences and filters", "why_tests_cant": "All filters and histories.", "anchors": ["sawatabi/algorithm/abstract_algorithm.py:AbstractAlgorithm.SolveDoFn.process"]}
{"id": "C69", "title": "A failed map loses no data", "statement": "If map_fn fails for a window, the elements it should have added are still offered to map_fn as incoming in a later window.", "quantifier": "all window sequences and failure patterns", "why_tests_cant": "Crash points.", "anchors": ["sawatabi/algorithm/abstract_algorithm.py:AbstractAlgorithm.SolveDoFn.process"]}
{"id": "C70", "title": "Model and sampleset state advance together with success", "statement": "The model passed to map_fn is the one returned by the last successful map_fn, and the sampleset is that of the last successful solve_fn; both start empty.", "quantifier": "all window sequences and failure patterns", "why_tests_cant": "All histories of failures.", "anchors": ["sawatabi/algorithm/abstract_algorithm.py:AbstractAlgorithm.SolveDoFn.process"]}
{"id": "C71", "title": "Elements are processed in event-time order", "statement": "The elements passed to the user functions are sorted and depend only on the multiset of elements of the window, not on arrival order.", "quantifier": "all arrival orders", "why_tests_cant": "All permutations.", "anchors": ["sawatabi/algorithm/abstract_algorithm.py:AbstractAlgorithm.SolveDoFn.process"]}
{"id": "C72", "title": "Attenuation scales interpolate", "statement": "The attenuation algorithm sets each interaction's scale to the linear interpolation between min_scale at the oldest and 1 at the newest reference timestamp: in range, monotone, exact at both ends; and leaves coefficients alone.", "quantifier": "all models and timestamp columns", "why_tests_cant": "All columns.", "anchors": ["sawatabi/algorithm/abstract_algorithm.py:AbstractAlgorithm.SolveDoFn.process"]}
{"id": "C73", "title": "Attenuation does not crash the pipeline", "statement": "The attenuation step never raises out of the pipeline, whatever model map_fn returns.", "quantifier": "all models returned by map_fn", "why_tests_cant": "All models, including those without interactions.", "anchors": ["sawatabi/algorithm/abstract_algorithm.py:AbstractAlgorithm.SolveDoFn.process"]}
{"id": "C74", "title": "Indices are consecutive", "statement": "The index assigned to stream elements is 0,1,2,... in processing order: unique, gap-free and never reused.", "quantifier": "all streams", "why_tests_cant": "All lengths.", "anchors": ["sawatabi/algorithm/abstract_algorithm.py:AbstractAlgorithm.IndexAssigningStatefulDoFn.process"]}
{"id": "C75", "title": "Number input reads exactly the decimal lines", "statement": "read_*_as_number passes on exactly the messages consisting of decimal digits (one or more), each as its decimal value, in order, and drops the rest.", "quantifier": "all message sequences", "why_tests_cant": "All strings.", "anchors": ["sawatabi/algorithm/io.py:IO._read_as_number"]}
{"id": "C76", "title": "Elementwise helpers", "statement": "elementwise_add/sub/max/min act pointwise; add and sub are inverse, max/min are bounds, on equal-length tuples; mixed types are rejected.", "quantifier": "all tuples and lists", "why_tests_cant": "All lengths.", "anchors": ["sawatabi/utils/functions.py:Functions"]}
{"id": "C77", "title": "Model type and variable type maps are inverse", "statement": "_modeltype_to_vartype and _vartype_to_modeltype are mutually inverse and reject everything else.", "quantifier": "all strings", "why_tests_cant": "All strings.", "anchors": ["sawatabi/base_mixin.py:BaseMixin._modeltype_to_vartype", "sawatabi/base_mixin.py:BaseMixin._vartype_to_modeltype"]}
{"id": "C78", "title": "Constraint construction checks its arguments", "statement": "A constraint is constructed exactly if its label is not empty, its variables argument is None or a valid collection and, for N-hot, n is at least 1; it then stores these arguments, with each given variable once. Otherwise TypeError or ValueError is raised.", "quantifier": "all arguments", "why_tests_cant": "All collections and integers.", "anchors": ["sawatabi/model/constraint/n_hot_constraint.py:NHotConstraint.__init__", "sawatabi/model/constraint/zero_or_one_hot_constraint.py:ZeroOrOneHotConstraint.__init__", "sawatabi/model/constraint/equality_constraint.py:EqualityConstraint.__init__"]}
{"id": "C79", "title": "Flattening is row-major and complete", "statement": "_flatten of a nested list yields exactly its leaves; for a regular array they come in row-major order and there are as many as the array has places.", "quantifier": "all nested lists and shapes", "why_tests_cant": "All depths and shapes.", "anchors": ["sawatabi/utils/functions.py:Functions._flatten"]}
{"id": "C80", "title": "The streaming number partitioning keeps the model of the window", "statement": "In every window the model given to solve_fn has, up to a constant, half the square of the signed sum of exactly the numbers of the window (window, delta) or of all numbers so far (incremental) as its energy; nothing remains of numbers that left.", "quantifier": "all streams, all cuts into windows, all solvers (also failing ones)", "why_tests_cant": "All streams of all lengths; errors accumulate over many windows.", "anchors": ["sample/algorithm/npp_window.py:npp_mapping", "sawatabi/algorithm/abstract_algorithm.py:AbstractAlgorithm.SolveDoFn.process", "sawatabi/model/logical_model.py:LogicalModel.delete_variable"]}
{"id": "C81", "title": "The streaming number partitioning reports optimal partitions", "statement": "With the exact solver every window yields two sets that partition its numbers, their sums, and the smallest possible difference.", "quantifier": "all streams and all cuts into windows", "why_tests_cant": "All numbers and all 2^n partitions.", "anchors": ["sample/algorithm/npp_window.py:npp_unmapping", "sample/algorithm/npp_window.py:npp_solving", "sawatabi/solver/local_solver.py:LocalSolver.solve"]}
{"id": "C82", "title": "A model built by public calls is solved for its own objective", "statement": "For a model built by any sequence of public calls, to_physical followed by SawatabiSolver.solve or LocalSolver.solve (exact) reports for each sample the objective of the logical model (energy plus constraint penalties) at that sample, and the exact solver's best sample minimises that objective over all assignments.", "quantifier": "all histories of public calls, placeholder dictionaries, annealing parameters, random streams and assignments", "why_tests_cant": "The claim composes every stage for unbounded histories and all assignments; tests look at single pipelines with fixed seeds.", "anchors": ["sawatabi/model/logical_model.py:LogicalModel.to_physical", "sawatabi/solver/sawatabi_solver.py:SawatabiSolver.solve", "sawatabi/solver/local_solver.py:LocalSolver.solve"]}
{"id": "C83", "title": "Strong constraints are satisfied by every optimal sample", "statement": "If some assignment satisfies all constraints of a QUBO model and every constraint is stronger than each difference of energies of the logical model, the optimal samples of the exact solver satisfy all constraints and have the lowest logical energy among the assignments that do.", "quantifier": "all QUBO models built by public calls, all constraint sets and strengths", "why_tests_cant": "Optimality and feasibility range over all assignments and all constraint combinations.", "anchors": ["sawatabi/model/logical_model.py:LogicalModel.to_physical", "sawatabi/model/constraint/n_hot_constraint.py:NHotConstraint.to_model", "sawatabi/model/constraint/zero_or_one_hot_constraint.py:ZeroOrOneHotConstraint.to_model", "sawatabi/model/constraint/equality_constraint.py:EqualityConstraint.to_model", "sawatabi/solver/local_solver.py:LocalSolver.solve"]}
{"id": "C84", "title": "The columns of the interaction table stay in step", "statement": "Whatever public methods are called, returning or raising, the lists of the default columns of _interactions_array have one length, and at each position body, key, key_0 and key_1 describe the variables in interacts.", "quantifier": "all histories of public calls", "why_tests_cant": "Each method writes the lists one at a time; a missed or doubled write in a rare branch shows only after further calls.", "anchors": ["sawatabi/model/logical_model.py:LogicalModel.add_interaction", "sawatabi/model/logical_model.py:LogicalModel.to_physical", "sawatabi/model/logical_model.py:LogicalModel.merge", "sawatabi/model/logical_model.py:LogicalModel._update_variables_type"]}
{"id": "C85", "title": "Invalid interaction arguments are rejected, each with its exception", "statement": "add_interaction, update_interaction, remove_interaction and get_attributes raise exactly if an argument is invalid (no or two ways of naming the interaction, wrong types, equal variables, unknown, taken or removed name), the exception is the one of the first invalid argument in a fixed order, and the model is unchanged; otherwise the call returns.", "quantifier": "all models and all arguments", "why_tests_cant": "The combinations of argument kinds and model states are unbounded; tests check single calls.", "anchors": ["sawatabi/model/logical_model.py:LogicalModel.add_interaction", "sawatabi/model/logical_model.py:LogicalModel.update_interaction", "sawatabi/model/logical_model.py:LogicalModel.remove_interaction", "sawatabi/model/logical_model.py:LogicalModel._get_interaction_info_from_target", "sawatabi/model/logical_model.py:LogicalModel._get_internal_name_from_target_and_name"]}
{"id": "C86", "title": "The registries of a model follow the calls", "statement": "After any history of calls, a model holds for each label the constraint added last and not removed since (no delete_variable or merge in the history), the deleted labels are those named in delete_variable calls and the fixed labels those named in fix_variable calls with a valid value (no merge); remove_constraint raises KeyError exactly for absent labels; offset sets only the constant term; variables(array) accepts exactly arrays whose variables have the type of the model and a bracketed label, and registers them under the stem of the label.", "quantifier": "all histories of public calls", "why_tests_cant": "Histories of unbounded length, with returning and raising calls mixed.", "anchors": ["sawatabi/model/logical_model.py:LogicalModel.add_constraint", "sawatabi/model/logical_model.py:LogicalModel.remove_constraint", "sawatabi/model/logical_model.py:LogicalModel.variables", "sawatabi/model/logical_model.py:LogicalModel.delete_variable", "sawatabi/model/logical_model.py:LogicalModel.fix_variable", "sawatabi/model/logical_model.py:LogicalModel.offset"]}
{"id": "C87", "title": "Equal models behave alike", "statement": "On models made by public calls == is an equivalence relation and holds exactly if the models are the same up to the order of dictionaries and sets. The same call on equal models returns on both or raises the same exception on both, the models are equal afterwards, the getters give the same values and to_physical gives equal physical models. Equal physical models have the same energies, variables and numbering.", "quantifier": "all pairs of models made by public calls, all calls and histories of calls", "why_tests_cant": "A relation between two runs for all histories; the order of dictionaries cannot be enumerated.", "anchors": ["sawatabi/model/logical_model.py:LogicalModel.__eq__", "sawatabi/model/physical_model.py:PhysicalModel.__eq__", "sawatabi/model/constraint/n_hot_constraint.py:NHotConstraint.__eq__", "sawatabi/model/constraint/zero_or_one_hot_constraint.py:ZeroOrOneHotConstraint.__eq__", "sawatabi/model/constraint/equality_constraint.py:EqualityConstraint.__eq__"]}
{"id": "C88", "title": "The travelling salesperson application poses its problem", "statement": "For every window with at least one city tsp_mapping returns a QUBO model whose energy is, for all bits and all placeholder values, the travelled distance plus the weighted squares for the times and for the cities; nothing of earlier windows is left in it, whatever the solver did.", "quantifier": "all windows of cities, distances, previous models and solvers", "why_tests_cant": "All numbers of cities, all 2^(n*n) assignments and all streams of windows.", "anchors": ["sample/algorithm/tsp_window.py:tsp_mapping", "sawatabi/model/logical_model.py:LogicalModel.from_pyqubo", "sawatabi/model/logical_model.py:LogicalModel.empty"]}
{"id": "C89", "title": "The travelling salesperson application reports shortest tours", "statement": "With the exact solver every window yields the names of its cities in the order of a shortest round trip.", "quantifier": "all windows of cities and all distances", "why_tests_cant": "Optimality over all tours and all assignments of the bits.", "anchors": ["sample/algorithm/tsp_window.py:tsp_unmapping", "sample/algorithm/tsp_window.py:tsp_solving", "sawatabi/solver/local_solver.py:LocalSolver.solve"]}
{"id": "C90", "title": "A model merged with itself is doubled", "statement": "model.merge(model) behaves like merging an equal second model: it doubles the energy of every assignment, the interactions keep distinct names, and if it raises the model is unchanged.", "quantifier": "all models, placeholder values and assignments", "why_tests_cant": "All models; reads of the other model and writes of this one are interleaved on one object.", "anchors": ["sawatabi/model/logical_model.py:LogicalModel.merge"]}
{"id": "C91", "title": "Calls on one model do not change another", "statement": "When several models and constraint objects exist and objects may be registered in more than one model, a call on a model does to it what it does when no other model exists, and leaves the other models as they are.", "quantifier": "all histories of calls on any number of models and constraint objects", "why_tests_cant": "Aliasing needs histories over several objects; every combination of registering, merging and deleting counts.", "anchors": ["sawatabi/model/logical_model.py:LogicalModel.add_constraint", "sawatabi/model/logical_model.py:LogicalModel.delete_variable", "sawatabi/model/logical_model.py:LogicalModel.merge", "sawatabi/model/constraint/n_hot_constraint.py:NHotConstraint.add_variable"]}
{"id": "C92", "title": "The n-hot models written by hand are n-hot", "statement": "For every number s >= 1 of variables and every n, the model of n_hot_from_scratch (all pairs with -2, all variables with minus coeff) is built and converted without error, in both kinds, and the exact local solver returns every assignment once, those of least energy being exactly the ones with n variables equal to 1 (all of them if n > s).", "quantifier": "all s, n, both model types, all clocks", "why_tests_cant": "The samples try five sizes; the claim is about all sizes and all 2^s assignments.", "anchors": ["sample/model/constraint/n_hot_from_scratch.py:n_hot_from_scratch_4_of_2_ising", "sample/model/constraint/n_hot_from_scratch.py:n_hot_from_scratch_4_of_2_qubo", "sawatabi/model/logical_model.py:LogicalModel.add_interaction", "sawatabi/model/logical_model.py:LogicalModel.to_physical", "sawatabi/solver/local_solver.py:LocalSolver.solve"]}
{"id": "C93", "title": "The n-hot models with the constraint class are n-hot", "statement": "n_hot_s_of_n succeeds exactly for positive s and n, for both model types; the samples of least energy of the exact local solver are exactly those with n variables equal to 1 (all of them if n > s), the same as for the models written by hand.", "quantifier": "all s, n, both model types", "why_tests_cant": "The samples try three sizes; the claim is about all sizes and all 2^s assignments.", "anchors": ["sample/model/constraint/n_hot_constraint.py:n_hot_s_of_n_ising", "sample/model/constraint/n_hot_constraint.py:n_hot_s_of_n_qubo", "sawatabi/model/constraint/n_hot_constraint.py:NHotConstraint.to_model", "sawatabi/model/logical_model.py:LogicalModel.to_physical"]}
{"id": "C94", "title": "The models of the solver samples have the optima of their comments", "statement": "Each model of _solver_helper.py is built without error, and the exact local solver finds exactly the optimal assignments and the optimal energy that the comment in the source states; for the one-hot, one-body and chain models for every number of variables.", "quantifier": "all assignments; all numbers of variables", "why_tests_cant": "All 2^n assignments for all n.", "anchors": ["sample/solver/_solver_helper.py:_create_ising_model", "sample/solver/_solver_helper.py:_create_qubo_model", "sample/solver/_solver_helper.py:_create_simple_ising_model_with_only_1_body", "sample/solver/_solver_helper.py:_create_simple_ising_model_with_only_2_body", "sample/solver/_solver_helper.py:_create_simple_2x2_ising_model_without_active_var", "sample/solver/_solver_helper.py:_create_simple_2x2_qubo_model_without_active_var"]}
{"id": "C95", "title": "Attenuation weighs the numbers of the window by age", "statement": "Over windows that slide along a stream, the number partitioning application with attenuation handles every window; the model given to solve_fn has as energy the sum of the products of signed numbers over all pairs, each scaled by the weight of the older number (the minimum scale for the oldest, 1 for the last but one, linear in time between), whatever scales earlier windows left; with the exact solver the partition reported minimises this sum, which for a minimum scale of 1 makes the difference least.", "quantifier": "all streams, windows, minimum scales, solvers", "why_tests_cant": "Scales are computed again in every window from the attributes of interactions added in any earlier window; sequences of windows are unbounded.", "anchors": ["sawatabi/algorithm/attenuation.py:Attenuation", "sawatabi/algorithm/abstract_algorithm.py:AbstractAlgorithm", "sample/algorithm/npp_window.py:npp_mapping", "sample/algorithm/npp_attenuation.py:npp_attenuation"]}
{"id": "C96", "title": "The number partitioning pipeline partitions every window of its input", "statement": "Over any text, the elements are the decimal lines at times 0, 1, 2, ...; the windows of the pipeline are the non-empty intervals [k*period, k*period+size), with whole-second options pieces of the input. Whatever order the runner gives to the elements of a window, the pipelines with the window and delta algorithms and the exact solver report for every window, once and in time order, a partition of its numbers with least difference (if there are at least two and none is zero); with the incremental algorithm, of all numbers up to the end of the window.", "quantifier": "all texts, window sizes and periods, orders of elements within windows", "why_tests_cant": "The text, the window options and the order chosen by the runner are unbounded; the whole chain from text to answer counts.", "anchors": ["sawatabi/algorithm/abstract_algorithm.py:AbstractAlgorithm._create_pipeline", "sawatabi/algorithm/window.py:Window.create_pipeline", "sawatabi/algorithm/delta.py:Delta.create_pipeline", "sawatabi/algorithm/incremental.py:Incremental.create_pipeline", "sawatabi/algorithm/io.py:IO.read_from_text_as_number", "sample/algorithm/npp_window.py:npp_window"]}
{"id": "C97", "title": "The attenuation pipeline gets through its input", "statement": "Over any text and any positive window size and period, the number partitioning pipeline with attenuation handles every window, and with the exact solver and a positive minimum scale reports the weighted optimum of each.", "quantifier": "all texts, window sizes and periods, minimum scales", "why_tests_cant": "Whether it fails depends on the number of lines modulo the period.", "anchors": ["sawatabi/algorithm/abstract_algorithm.py:AbstractAlgorithm._create_pipeline", "sawatabi/algorithm/attenuation.py:Attenuation.create_pipeline", "sample/algorithm/npp_attenuation.py:npp_attenuation"]}
{"id": "C98", "title": "The travelling salesperson pipeline reports shortest tours", "statement": "Over any list of cities, the pipeline with the exact solver reports for every window, once and in time order, the names of its cities in the order of a shortest round trip.", "quantifier": "all lists of cities, distances, window sizes and periods, orders of elements within windows", "why_tests_cant": "The list, the window options and the tours are unbounded.", "anchors": ["sawatabi/algorithm/abstract_algorithm.py:AbstractAlgorithm._create_pipeline", "sawatabi/algorithm/window.py:Window.create_pipeline", "sample/algorithm/tsp_window.py:tsp_window"]}
{"id": "C99", "title": "The annealing can return every state", "statement": "As long as the temperatures leave flips uphill open (the number they are accepted below is strictly between 0 and 1), a run may return every state, for some draws of the random generator, from a random initial state and from any given one; in particular it may find every optimum.", "quantifier": "all models, states, numbers of sweeps, temperatures, both pickup modes", "why_tests_cant": "Exists-statements over random draws cannot be tested; all pairs of states count.", "anchors": ["sawatabi/solver/sawatabi_solver.py:SawatabiSolver.annealing", "sawatabi/solver/sawatabi_solver.py:SawatabiSolver.is_acceptable", "sawatabi/solver/sawatabi_solver.py:SawatabiSolver.calc_energy_diff"]}
{"id": "C100", "title": "Flips uphill are accepted with the Metropolis probability", "statement": "A flip that raises the energy by d is accepted at temperature T by the share exp(-d/T) of the random numbers: of N evenly spaced ones by the least number not below N*exp(-d/T). A random number that accepts a flip accepts every flip by no more at every higher temperature.", "quantifier": "all models, states, variables, temperatures, N", "why_tests_cant": "Probabilities are visible in tests only statistically.", "anchors": ["sawatabi/solver/sawatabi_solver.py:SawatabiSolver.is_acceptable", "sawatabi/solver/sawatabi_solver.py:SawatabiSolver.annealing"]}
{"id": "C101", "title": "What is written for a window", "statement": "For every window a pipeline writes the prefix, the time in brackets, the answer and the suffix, each part exactly if its option is turned on; answers, and times if written, can be told apart from the texts. Options that do not fit are rejected. Answers to windows without a result differ between the stages that failed.", "quantifier": "all options, times and answers", "why_tests_cant": "All combinations of present, missing and wrong values with all texts.", "anchors": ["sawatabi/algorithm/abstract_algorithm.py:AbstractAlgorithm._create_pipeline", "sawatabi/algorithm/abstract_algorithm.py:AbstractAlgorithm.WithTimestampStrFn"]}
{"id": "C102", "title": "The message about an outdated window names both times", "statement": "A window older than the last one is answered by one message that names the time of the window and the time of the last one.", "quantifier": "all algorithms, user functions, states and windows", "why_tests_cant": "A test that looks for a message passes whatever times it names.", "anchors": ["sawatabi/algorithm/abstract_algorithm.py:AbstractAlgorithm.SolveDoFn.process"]}
{"id": "C103", "title": "The text of the number partitioning report can be read", "statement": "The text that the number partitioning application writes has the fixed lines of its report with the numbers in decimal; at most one report fits a text. In the whole pipeline, with any output options, what can be read from the text for a window is a best partition of its numbers.", "quantifier": "all lines of input, windows, options", "why_tests_cant": "Reading back must be unambiguous for all numbers and lengths.", "anchors": ["sample/algorithm/npp_window.py:npp_unmapping", "sawatabi/algorithm/abstract_algorithm.py:AbstractAlgorithm._create_pipeline"]}
{"id": "C104", "title": "The publisher sends numbers that are read back", "statement": "With --incremental-number the publisher sends 1, 2, 3, ... and stops after --incremental-end messages if that is at least 1, never otherwise; the number input reads exactly these numbers.", "quantifier": "all ends, all numbers of rounds", "why_tests_cant": "The loop has no bound.", "anchors": ["sample/pubsub/publish_pubsub.py:main", "sawatabi/algorithm/io.py:IO._read_as_number"]}
{"id": "C105", "title": "Models can be printed", "statement": "str and repr of a model work for every model, change nothing and show its arrays, interactions, offset and constraints; the text of str is a box with an edge on every line, that of repr stands in its brackets.", "quantifier": "all models and formats of their parts", "why_tests_cant": "Names, tables and formats have any number of lines.", "anchors": ["sawatabi/model/logical_model.py:LogicalModel.__str__", "sawatabi/model/logical_model.py:LogicalModel.__repr__", "sawatabi/model/physical_model.py:PhysicalModel.__str__", "sawatabi/model/physical_model.py:PhysicalModel.__repr__", "sawatabi/model/abstract_model.py:AbstractModel"]}
{"id": "C106", "title": "Checks of element types accept exactly good elements", "statement": "_check_argument_type_in_tuple and _check_argument_type_in_list pass exactly if there is an element and each one is an instance of one of the types, and raise TypeError otherwise; _check_argument_type does so for a single value. Messages say 'an' exactly before vowels.", "quantifier": "all values, types and class relations", "why_tests_cant": "All lists of values and types.", "anchors": ["sawatabi/base_mixin.py:BaseMixin._check_argument_type_in_tuple", "sawatabi/base_mixin.py:BaseMixin._check_argument_type_in_list", "sawatabi/base_mixin.py:BaseMixin._check_argument_type", "sawatabi/base_mixin.py:BaseMixin._get_article"]}
{"id": "C107", "title": "The clocks agree", "statement": "For one reading of the clock, the time functions give the same time in seconds, milliseconds, microseconds and nanoseconds, and their whole numbers are cut from each other.", "quantifier": "all times", "why_tests_cant": "All clock values.", "anchors": ["sawatabi/utils/time.py:current_time", "sawatabi/utils/time.py:current_time_as_int"]}
{"id": "C108", "title": "Number partitioning with a filter keeps the pairs of numbers that were dropped between kept ones", "statement": "With the partial algorithm, the model of each window has exactly the pairs of its numbers and, in addition, the pairs of numbers that were dropped after a kept number; it is the model of the window exactly if no such number is non-zero. With the exact solver the report is determined by optimal spins for all these pairs, and is an optimal partition if nothing but zeros was dropped after a kept number.", "quantifier": "all streams, batches and filters that do not raise; all solvers for the model", "why_tests_cant": "Depends on the whole history of the stream.", "anchors": ["sample/algorithm/npp_partial.py:npp_partial", "sample/algorithm/npp_window.py:npp_mapping", "sample/algorithm/npp_window.py:npp_unmapping", "sawatabi/algorithm/abstract_algorithm.py:AbstractAlgorithm.SolveDoFn.process"]}
{"id": "C109", "title": "Rounding keeps the reported energies close to the true ones", "statement": "In floats, every energy that the annealing reports differs from the energy of the state it belongs to by at most an explicit bound in the unit roundoff, the number of accepted flips, the degrees and the sum of the absolute coefficients; decisions differ from exact ones only near ties; with integer coefficients that add up to at most 2^51 there is no error at all.", "quantifier": "all models, states, random numbers, temperatures, roundings with the given relative error", "why_tests_cant": "Runs have any length, and rounding errors depend on all flips.", "anchors": ["sawatabi/solver/sawatabi_solver.py:SawatabiSolver.annealing", "sawatabi/solver/sawatabi_solver.py:SawatabiSolver.calc_energy_diff", "sawatabi/solver/sawatabi_solver.py:SawatabiSolver.is_acceptable"]}
{"id": "C110", "title": "Rounding keeps the physical model close to the logical one", "statement": "In floats, every coefficient and every energy of the physical model of a model without constraints and placeholders differs from that of the logical model by at most an explicit bound in the unit roundoff, the number of interactions about the same variables and the sum of the absolute weights; success, errors and the state afterwards are the same. Together with the solver, every reported energy is the energy of the logical model at the sample up to a bound, and exactly if the weights and the offset are integers that add up to at most 2^51.", "quantifier": "all models made by calls, roundings with the given relative error, random numbers, options", "why_tests_cant": "Any number of interactions may share their variables, and runs have any length.", "anchors": ["sawatabi/model/logical_model.py:LogicalModel.to_physical", "sawatabi/solver/sawatabi_solver.py:SawatabiSolver.solve"]}
{"id": "C111", "title": "At a fixed temperature the annealing keeps the Boltzmann distribution", "statement": "With cooling rate 1 and no reverse options, if the initial states are distributed with weights exp(-energy / temperature), so are the returned samples: in total the weights change by at most 2 * (1 / N + error of exp) of their sum per flip tried, where the random numbers are independent and even on the multiples of 1 / N in [0, 1). No run raises, and the chances of the samples add up to 1.", "quantifier": "all models made by calls, temperatures > 0, numbers of sweeps, orders of the variables", "why_tests_cant": "It is about the distribution over all random numbers and all states; runs show samples only.", "anchors": ["sawatabi/solver/sawatabi_solver.py:SawatabiSolver.annealing", "sawatabi/solver/sawatabi_solver.py:SawatabiSolver.is_acceptable", "sawatabi/solver/sawatabi_solver.py:SawatabiSolver.calc_energy_diff"]}
{"id": "C112", "title": "select_interaction returns the matching interactions", "statement": "select_interaction returns exactly the lines of the table that meet the query, in the order of the table and under their own positions, removed ones included, as a data frame or as a dictionary with the same lines; it changes nothing; select_interactions_by_variable and the selections of the conversions are special cases.", "quantifier": "all models made by calls, all conditions on lines, all formats", "why_tests_cant": "Tables have any number of lines and columns, and the history decides whether pandas accepts them.", "anchors": ["sawatabi/model/logical_model.py:LogicalModel.select_interaction", "sawatabi/model/logical_model.py:LogicalModel.select_interactions_by_variable"]}
{"id": "C113", "title": "The getters return the alive variables", "statement": "get_variables and get_variables_by_name return the arrays of the variables that are neither deleted nor fixed, with the shapes that the variables and append calls add up to; get_deleted_array and get_fixed_array return the labels that were deleted and fixed.", "quantifier": "all histories of calls that register arrays by name and shape", "why_tests_cant": "The arrays depend on the whole history, including the calls that raise.", "anchors": ["sawatabi/model/logical_model.py:LogicalModel.get_variables", "sawatabi/model/logical_model.py:LogicalModel.get_variables_by_name", "sawatabi/model/logical_model.py:LogicalModel.get_deleted_array", "sawatabi/model/logical_model.py:LogicalModel.get_fixed_array"]}
{"id": "C114", "title": "Number partitioning with equal timestamps", "statement": "Where several numbers of a stream have the same timestamp, the model of every window (or of all numbers so far) lets exactly the numbers with different timestamps interact. With the exact solver a window reports a partition if no number is zero and there are two timestamps, and fails otherwise; the square of the difference reported exceeds the least one by at most the squares of the sums over the shared timestamps.", "quantifier": "all streams in order of timestamps and indices, all cuts into windows or batches, all solvers (for the models)", "why_tests_cant": "Which numbers share a timestamp, and how the windows cut the stream, are arbitrary.", "anchors": ["sample/algorithm/npp_window.py:npp_mapping", "sample/algorithm/npp_window.py:npp_solving", "sample/algorithm/npp_window.py:npp_unmapping", "sawatabi/algorithm/abstract_algorithm.py:AbstractAlgorithm.SolveDoFn.process"]}
{"id": "C115", "title": "Physical models written by hand", "statement": "After any calls of add_interaction on a physical model each coefficient is the one given last for its name, and nothing else changes. Without self-loops to_bqm has the energy of the model (the coefficients of (a, b) and (b, a) add up) and the exact local solver returns its minimum; with a self-loop to_bqm and the solvers raise ValueError. SawatabiSolver and OptiganSolver solve such models too.", "quantifier": "all sequences of calls, on new physical models and on those that to_physical returns", "why_tests_cant": "Names can be repeated, reversed or new in any order, and the samples range over all assignments.", "anchors": ["sawatabi/model/physical_model.py:PhysicalModel.add_interaction", "sawatabi/model/physical_model.py:PhysicalModel.to_bqm", "sawatabi/solver/local_solver.py:LocalSolver.solve", "sawatabi/solver/sawatabi_solver.py:SawatabiSolver.solve", "sawatabi/solver/optigan_solver.py:OptiganSolver.solve"]}
{"id": "C116", "title": "Equal physical models are annealed alike", "statement": "If two physical models are equal (==), SawatabiSolver with the same options, initial states and random numbers returns the same samples, energies and histories for both, or raises for both. In particular the order in which the interactions were added to the logical model makes no difference (in exact arithmetic).", "quantifier": "all pairs of equal physical models from to_physical, all orders of interactions, options, initial states and random numbers", "why_tests_cant": "Each order of the dictionaries gives another order of all sums in all steps.", "anchors": ["sawatabi/model/physical_model.py:PhysicalModel.__eq__", "sawatabi/solver/sawatabi_solver.py:SawatabiSolver.solve", "sawatabi/solver/sawatabi_solver.py:SawatabiSolver.annealing", "sawatabi/solver/sawatabi_solver.py:SawatabiSolver.calc_energy_diff"]}
{"id": "C117", "title": "Rounding in the conversion of QUBO models to spins", "statement": "In floats, the spin coefficients that the solver works with give, at all spins, the energies of the binary model up to an explicit bound in the unit roundoff, the numbers of variables and interactions and the sum of the absolute coefficients, in whatever order the halves and quarters are added; the reported energies are within an explicit bound of the energies of the reported samples. For integer weights and offsets that add up to at most 2^51 the conversion, and with it every reported energy, is exact.", "quantifier": "all models made by calls, roundings with the given relative error, orders of addition, random numbers, options", "why_tests_cant": "Any number of interactions may share a variable, sums may be done in any order, and runs have any length.", "anchors": ["sawatabi/solver/sawatabi_solver.py:SawatabiSolver.solve", "sawatabi/solver/sawatabi_solver.py:SawatabiSolver.annealing"]}
{"id": "C118", "title": "Number partitioning of any integers", "statement": "For integers of any sign solve_npp_with_dp returns exactly if no number is negative or the total is -1, 0 or 1, and raises IndexError otherwise; it never returns None. Whenever it returns, the flag says whether a balanced partition exists and every returned partition has the least difference.", "quantifier": "all lists of integers, both modes", "why_tests_cant": "Needs all subsets of all inputs, with negative numbers anywhere in the list.", "anchors": ["sawatabi/utils/npp.py:solve_npp_with_dp"]}
{"id": "C119", "title": "Attenuation by a default column", "statement": "If attenuation.key names a default column with numbers, every scale becomes the linear function of the entry of its line that is min_scale at the smallest entry and 1 at the greatest one, and the scales stay if all entries are equal; also with the column scale itself. An empty table raises ValueError, an entry without an order (None, an expression) TypeError. Other keys are looked up among the attributes.", "quantifier": "all models, placeholders missing or not, all default columns but those with the variables", "why_tests_cant": "All tables; with the key scale the loop overwrites the list that it reads.", "anchors": ["sawatabi/algorithm/abstract_algorithm.py:AbstractAlgorithm.SolveDoFn.process", "sawatabi/model/logical_model.py:LogicalModel.to_physical"]}
{"id": "C120", "title": "Constraints have their own variables", "statement": "A change that a caller makes to a set of variables after passing it to a constraint does not change the constraint, and no constructor or editing method changes a set that the caller passed or another constraint.", "quantifier": "all sequences of constructor calls, editing calls and changes of sets by the caller, with sets shared in any way", "why_tests_cant": "The sharing of objects depends on the whole history; tests make each set anew.", "anchors": ["sawatabi/model/constraint/abstract_constraint.py:AbstractConstraint._check_variables_and_to_set", "sawatabi/model/constraint/n_hot_constraint.py:NHotConstraint.add_variable", "sawatabi/model/constraint/n_hot_constraint.py:NHotConstraint.remove_variable", "sawatabi/model/constraint/equality_constraint.py:EqualityConstraint.__init__"]}
{"id": "C121", "title": "Profiling changes nothing, and the random model is complete", "statement": "A function decorated with profile leaves the same state, raises the same exceptions and returns its value under 'return'; the reported time is never negative and at least that of the profiled calls inside. The function of the sample draws one number for each variable and each pair of variables, in order and once each, and builds the Ising model of these numbers; it raises ValueError exactly if n is not positive, and with a seed the result does not depend on earlier draws. As it has no return statement, the model is not part of the result.", "quantifier": "all decorated functions, clocks that do not go back, numbers of variables, seeds and random numbers", "why_tests_cant": "All functions and all nestings of decorated calls; the numbers of variables are not bounded.", "anchors": ["sawatabi/utils/profile.py:profile", "sample/utils/profile.py:create_n_variable_random_model"]}
{"id": "C122", "title": "The text of the travelling salesperson sample", "statement": "The text has the data of the window in its third line and the cities in the order of the visits in its last line, and both can be read back from it: different windows or tours have different texts.", "quantifier": "all windows, samples and names of cities", "why_tests_cant": "Names are arbitrary strings of the input.", "anchors": ["sample/algorithm/tsp_window.py:tsp_unmapping"]}
{"id": "C123", "title": "Long runs at a fixed temperature forget the initial state", "statement": "With cooling rate 1 and no reverse options, the chances of the samples depend the less on the initial state the more sweeps there are, and get near to the Boltzmann distribution: the difference shrinks geometrically.", "quantifier": "all models made by calls, temperatures > 0, initial states, numbers of sweeps", "why_tests_cant": "It is about the distribution over all orders and random numbers, and about limits; runs show samples only.", "anchors": ["sawatabi/solver/sawatabi_solver.py:SawatabiSolver.annealing", "sawatabi/solver/sawatabi_solver.py:SawatabiSolver.is_acceptable", "sawatabi/solver/sawatabi_solver.py:SawatabiSolver.calc_energy_diff"]}
{"id": "C124", "title": "The text of a constraint tells which constraint it is", "statement": "Two constraints with the same str or the same repr are the same: kind, label, variables, n and strength can be read back from the text, whatever the label contains; != holds exactly if == does not, that is if one of these differs.", "quantifier": "all constraints and all labels; labels of the variables without closing parentheses", "why_tests_cant": "Labels are arbitrary strings: quotes, backslashes, line ends and text that looks like further entries.", "anchors": ["sawatabi/model/constraint/n_hot_constraint.py:NHotConstraint.__str__", "sawatabi/model/constraint/n_hot_constraint.py:NHotConstraint.__repr__", "sawatabi/model/constraint/n_hot_constraint.py:NHotConstraint.__ne__", "sawatabi/model/constraint/zero_or_one_hot_constraint.py:ZeroOrOneHotConstraint.__str__", "sawatabi/model/constraint/equality_constraint.py:EqualityConstraint.__str__"]}
{"id": "C125", "title": "The printed table of number partitioning", "statement": "With print_dp_table the function prints the numbers with their indices and a line for every sum from 0 to half the total. The cell of line i and column j is True exactly if some of the first j numbers have the sum i, and lists such a choice (with enumerate_all: exactly the choices that begin with a positive number, each once). The text determines the numbers and all cells. For up to nine numbers with a total below 2000 the columns are aligned. Printing does not change the answer, and without the option nothing is printed.", "quantifier": "for all lists of nonnegative integers, both modes", "why_tests_cant": "The tests print tables of a few short lists and do not check the text. Whether the text can be read back depends on cells longer than their column and on numbers of any length.", "anchors": ["sawatabi/utils/npp.py:65-75", "sawatabi/utils/npp.py:24-97"]}
{"id": "C126", "title": "Constraints in floating point", "statement": "For QUBO models with constraints, rounding changes neither whether to_physical succeeds, nor its errors, nor what it does to the model. The energy of the physical model, and the energies the solver reports, differ from the logical energy plus the penalties by at most an explicit bound; with integer weights and strengths below 2^51 in total they are equal. If the strengths exceed all differences of logical energies by twice the bound, the samples of lowest energy satisfy all constraints, and are optimal among those up to twice the bound.", "quantifier": "for all QUBO models made by calls, without placeholders; all roundings with a bounded relative error, all constraints over distinct labels", "why_tests_cant": "Tests use small integers, where nothing is rounded. The bound is about all coefficients and all orders of summation.", "anchors": ["sawatabi/model/logical_model.py:LogicalModel.to_physical", "sawatabi/model/constraint/n_hot_constraint.py:NHotConstraint.to_model", "sawatabi/model/constraint/zero_or_one_hot_constraint.py:ZeroOrOneHotConstraint.to_model", "sawatabi/model/constraint/equality_constraint.py:EqualityConstraint.to_model", "sawatabi/solver/sawatabi_solver.py:SawatabiSolver.annealing"]}
{"id": "C127", "title": "Repeated answers of Optigan are counted", "statement": "The sample set returned by OptiganSolver.solve has each sample of the answer once, in the order of first occurrence, with the number of times it occurs; the numbers add up to the number of vectors in the answer, no energy is lost, and if the labels of the model are distinct the numbers are those of the vectors of bits.", "quantifier": "for all physical models made by to_physical, all servers that report the value of the polynomial, all answers with any repetitions", "why_tests_cant": "Tests use one recorded answer without repetitions.", "anchors": ["sawatabi/solver/optigan_solver.py:OptiganSolver.solve", "sawatabi/solver/optigan_solver.py:103-108"]}
{"id": "C128", "title": "Options of a pipeline are checked when it is created", "statement": "create_pipeline succeeds exactly if the options that the algorithm needs are there, sizes are positive and initial_mtype names a type; otherwise it raises the exception for the first thing that is wrong. A pipeline that has been created does not fail for want of an option, and options of other algorithms change nothing.", "quantifier": "for all algorithms, options, arguments, functions and states", "why_tests_cant": "Tests create each pipeline with one complete set of options.", "anchors": ["sawatabi/algorithm/abstract_algorithm.py:AbstractAlgorithm._create_pipeline", "sawatabi/algorithm/abstract_algorithm.py:110-174", "sawatabi/algorithm/window.py:Window.create_pipeline", "sawatabi/algorithm/partial.py:Partial.create_pipeline", "sawatabi/algorithm/attenuation.py:Attenuation.create_pipeline", "sawatabi/algorithm/delta.py:Delta.create_pipeline", "sawatabi/algorithm/incremental.py:Incremental.create_pipeline"]}
{"id": "C129", "title": "Requests to Optigan say what the model and the caller say", "statement": "OptiganSolver.solve sends at most one request; it goes to the endpoint and carries the token given to the constructor, or those of the configuration file, never one of each. Whether compressed or not, the server reads from it the parameters and the polynomial of the model, and the answer is the same. Without access data nothing is sent and an exception is raised. The JSON text is printable ASCII and tells the payload.", "quantifier": "for all physical models, constructor arguments, configuration files, flags, parameters and servers", "why_tests_cant": "Tests replace requests.post by a function that ignores the request, so nothing that is sent is checked.", "anchors": ["sawatabi/solver/optigan_solver.py:OptiganSolver.__init__", "sawatabi/solver/optigan_solver.py:OptiganSolver.get_config", "sawatabi/solver/optigan_solver.py:OptiganSolver.solve", "sawatabi/solver/optigan_solver.py:59-101"]}
{"id": "C130", "title": "Optigan answers for the objective of the logical model", "statement": "A QUBO model is converted, sent to Optigan and solved: solve succeeds with one request, every vector of the answer becomes a sample with a bit for every variable of the physical model, and the reported energy is the objective of the logical model there (energy plus penalties) minus the objective where all variables are 0. If the server finds a best vector, the samples with the least reported energy are exactly those that minimise the objective; if the constraints are strong and can be satisfied, these samples satisfy them and are best among the assignments that do.", "quantifier": "for all QUBO models made by public calls over their own variables with registered attribute keys, all placeholders, all clocks, all servers that report the value of the polynomial, all numbers of answers", "why_tests_cant": "Tests check one recorded answer for one model; whether the server's bits mean the model's optimum depends on the conversion, the numbering, the polynomial and the decoding together.", "anchors": ["sawatabi/solver/optigan_solver.py:OptiganSolver.solve", "sawatabi/model/logical_model.py:LogicalModel.to_physical", "sawatabi/model/physical_model.py:PhysicalModel.to_polynomial"]}
{"id": "C131", "title": "Samplers are asked about the model of the caller, and their answers are about its objective", "statement": "DWaveSolver connects once, with endpoint and token of the caller if both are given and with neither otherwise, and asks for samples once, with the keyword arguments of the caller and a binary quadratic model that has the energies, the domain and the variables of the physical model. For any sampler that reports the energies of the model it is asked about (D-Wave or neal), every variable of the physical model has a value in its domain in every sample, and the reported energy is the objective of the logical model up to a constant that depends on the constraints only; if the sampler finds a ground state, the samples of least reported energy are exactly those that minimise the objective.", "quantifier": "for all models made by public calls with registered attribute keys, all constraints over sets of variables, all placeholders, samplers, access data and arguments", "why_tests_cant": "Tests mock the sampler or run one small model; that the samples mean the caller's optimum involves constraints, conversion, signs and offset for every model.", "anchors": ["sawatabi/solver/dwave_solver.py:DWaveSolver._create_composite", "sawatabi/solver/dwave_solver.py:DWaveSolver.solve", "sawatabi/solver/local_solver.py:LocalSolver.solve", "sawatabi/model/logical_model.py:LogicalModel.to_physical", "sawatabi/model/physical_model.py:PhysicalModel.to_bqm"]}
{"id": "C132", "title": "Converting and solving a model succeeds when it should, and gives all optima", "statement": "For a model made by public calls that keep names distinct, with constraints over sets of variables, to_physical followed by LocalSolver(exact=True).solve succeeds exactly if no equality constraint has a variable on both sides, all placeholders in use are given, and the objective (energy plus penalties) is not constant. Then the samples of least energy are exactly the minimisers of the objective, and every minimiser is among them. With Optigan the same conditions suffice for QUBO models over usable variables, given access data. Simulated annealing succeeds under the same conditions, and no sample is below the optimum. If each constraint is stronger than every difference of energies and all can be met, these optima are the best values that meet the constraints.", "quantifier": "for all such models, placeholders, clocks and ids, servers that evaluate what they are sent", "why_tests_cant": "Each test takes one model through the steps; here every step is shown to succeed for every model, and the result compared with all assignments.", "anchors": ["sawatabi/model/logical_model.py:LogicalModel.to_physical", "sawatabi/solver/local_solver.py:LocalSolver.solve", "sawatabi/solver/optigan_solver.py:OptiganSolver.solve"]}
{"id": "C133", "title": "Warnings are given exactly when a call does something else than it says", "statement": "append warns exactly if it creates variables because the name is unknown, update_interaction exactly if it adds an interaction because there is none for the target, fix_variable exactly if no interaction has the variable, to_ising and to_qubo exactly if the model has that type already. Such a call warns once, others of these methods never; merge and to_physical, which call some of them, never warn. The warning changes neither result nor model. If the caller turns warnings into exceptions, a call that warns raises and leaves the model as it was.", "quantifier": "for all models, arguments, clocks and warnings given before, with warnings shown or turned into exceptions", "why_tests_cant": "Tests check with pytest.warns that some calls warn; they never check that other calls do not, nor what is left when warnings are errors.", "anchors": ["sawatabi/model/logical_model.py:LogicalModel.append", "sawatabi/model/logical_model.py:LogicalModel.update_interaction", "sawatabi/model/logical_model.py:LogicalModel.fix_variable", "sawatabi/model/logical_model.py:LogicalModel.to_ising", "sawatabi/model/logical_model.py:LogicalModel.to_qubo", "sawatabi/model/logical_model.py:LogicalModel.merge", "sawatabi/model/logical_model.py:LogicalModel.to_physical"]}
{"id": "C134", "title": "What is written to Pub/Sub can be read from there", "statement": "If several programs write texts to topics, a reader of a topic (by its name or by a subscription of it) gets exactly the texts written to that topic, each as often as it was written, as text or as numbers; a topic is preferred to a subscription, without either reading raises, and a message that is no UTF-8 makes reading fail. A reader of numbers gets 1, 2, 3, ... from the publisher of numbers.", "quantifier": "for all texts, topics, subscriptions, projects without a slash in their names, numbers of writers, and every service that delivers each message once in any order", "why_tests_cant": "Tests only construct the transforms and see that empty names are rejected; no message is written or read.", "anchors": ["sawatabi/algorithm/io.py:IO.read_from_pubsub", "sawatabi/algorithm/io.py:IO.read_from_pubsub_as_number", "sawatabi/algorithm/io.py:IO.write_to_pubsub", "sample/pubsub/publish_pubsub.py:main"]}
{"id": "C135", "title": "Cities sent by Pub/Sub arrive as they were drawn, and the subscriber shows what was sent", "statement": "The message the publisher writes by hand for a random city is what json.dumps gives for the object with the name and the list of longitude and latitude; different cities have different messages. A pipeline that reads JSON from the topic gets each city sent once, and the travelling-salesman application takes from it the name, longitude and latitude that were drawn. Reading JSON succeeds exactly if all texts are JSON. The subscriber prints one line for each text written to the topic of its subscription, ending in that text.", "quantifier": "for all letters and numbers drawn, all formats of numbers, topics, subscriptions, writers, clocks, every json.loads that undoes json.dumps for such objects, and every service that delivers each message once in any order", "why_tests_cant": "No test runs the publisher or the subscriber, nor reads JSON from Pub/Sub; the message is put together by hand from random parts.", "anchors": ["sample/pubsub/publish_pubsub.py:main", "sample/pubsub/subscribe_pubsub.py:main", "sawatabi/algorithm/io.py:IO.read_from_pubsub_as_json", "sawatabi/algorithm/io.py:IO._read_as_json", "sample/algorithm/tsp_window.py:tsp_mapping"]}
{"id": "C136", "title": "A reader of numbers takes exactly the numbers from the messages of the publisher", "statement": "Whatever options choose the message and whatever is drawn, a reader of numbers takes from the rounds of the publisher, in order, the number drawn with --random-number, the counter with --incremental-number, and the drawn text of --incremental-text if it consists of digits, and nothing else; random texts, cities and test messages are never taken for numbers. If several options are given, the first of random text, random number, city, incremental text and incremental number counts.", "quantifier": "for all combinations of options, all things drawn (texts without newlines), all formats of numbers and all rounds", "why_tests_cant": "No test runs the publisher; what it sends is random.", "anchors": ["sample/pubsub/publish_pubsub.py:main", "sawatabi/algorithm/io.py:IO._read_as_number"]}
