{"claims": [
{"property": "C01", "status": "proved", "theorems": ["Verif.C01_dict_value", "Verif.C01_matrix_value", "Verif.C01_dict_accepts", "Verif.C01_dict_last", "Verif.C01_upper", "Verif.C01_get_symm", "Verif.C01_get_value", "Verif.C01_symmetric", "Verif.C01_toArray", "Verif.C01_array_entries", "Verif.C01_set_get"], "note": "Value, triangular storage, symmetric reading and symmetric form, for dictionary, matrix and sparse input. The value theorem for dictionaries needs distinct positions; C01_dict_last gives the coefficients when positions are repeated."},
{"property": "C02", "status": "proved", "theorems": ["Verif.C02_linear", "Verif.C02_quadratic", "Verif.C02_objective"], "note": "Exact second order expansion at all points and directions for well-formed expressions (which every constructor yields)."},
{"property": "C03", "status": "proved", "theorems": ["Verif.C03_lookup"], "note": "Induction over all sequences of successful builder calls, including batches, removals, clear and bound assignments."},
{"property": "C04", "status": "partial", "theorems": ["Verif.C04_variable_violated", "Verif.C04_linear_violated", "Verif.C04_quadratic_violated", "Verif.C04_batch_violated", "Verif.C04_exception_safety_partial"], "note": "False in the code: a rejected variable or constraint leaves its name in the index (witnesses proved). The partial theorem covers the calls and components for which it holds."},
{"property": "C05", "status": "proved", "theorems": ["Verif.C05_variable", "Verif.C05_batch", "Verif.C05_linear", "Verif.C05_quadratic"], "note": "The unbounded search is shown to end by the pigeonhole principle; holds for any name table."},
{"property": "C06", "status": "proved", "theorems": ["Verif.C06_removeLinear", "Verif.C06_removeQuadratic", "Verif.C06_feasible_linear", "Verif.C06_feasible_quadratic"], "note": ""},
{"property": "C07", "status": "proved", "theorems": ["Verif.C07_info", "Verif.C07_isFeasible", "Verif.C07_length", "Verif.C07_complete", "Verif.C07_exact"], "note": "For programs whose constraints have the shape of the program (see C54)."},
{"property": "C08", "status": "partial", "theorems": ["Verif.C08_violated", "Verif.C08_types_partial"], "note": "False in the code: integrality is not checked (witness proved). Bounds are respected."},
{"property": "C09", "status": "partial", "theorems": ["Verif.C09_violated", "Verif.C09_energy_partial", "Verif.C09_rejects", "Verif.C09_accepts"], "note": "False in the code for objectives without coefficients: the returned identity has energy 1 (witness proved). Holds for all other programs."},
{"property": "C10", "status": "partial", "theorems": ["Verif.C10_violated", "Verif.C10_from_ising_partial", "Verif.C10_rejects"], "note": "False when a Pauli string is repeated in the operator: assignment overwrites (witness proved). Holds for distinct strings."},
{"property": "C100", "status": "partial", "theorems": ["Verif.C100_minEigen", "Verif.C100_grover", "Verif.C100_grover_partial", "Verif.C100_violated"], "note": "Proved for the minimum eigen optimizer and for the Grover optimizer on minimizations; the Grover optimizer lists the raw samples of maximizations worst first (witness proved)."},
{"property": "C101", "status": "partial", "theorems": ["Verif.C101_bound_partial", "Verif.C101_stuck", "Verif.C101_knapsack", "Verif.C101_violated"], "note": "Proved without constraints: the value is within rho_initial/2 per one of the optimum. Optimality is false: with default parameters every knapsack with values below 5000 comes back empty (proved for all optimizers with optimal answers)."},
{"property": "C102", "status": "proved", "theorems": ["Verif.C102_penalty", "Verif.C102_ising", "Verif.C102_optimum", "Verif.C102_qubo", "Verif.C102_interpret", "Verif.C102_solution"], "note": ""},
{"property": "C103", "status": "proved", "theorems": ["Verif.C103_objective", "Verif.C103_compare", "Verif.C103_inequality", "Verif.C103_equality", "Verif.C103_feasible"], "note": ""},
{"property": "C104", "status": "partial", "theorems": ["Verif.C104_steps_partial", "Verif.C104_kept", "Verif.C104_violated", "Verif.C104_solved_violated"], "note": "False for the status: a second substitution forgets that the first one reported INFEASIBLE, and optimizers ignore the report. Proved: variables, objective and feasible points agree; builder calls keep the status."},
{"property": "C105", "status": "partial", "theorems": ["Verif.C105_bound", "Verif.C105_default", "Verif.C105_violated", "Verif.C105_found_partial"], "note": "False for large programs: the limit of 79 rotations is independent of the number of variables, so no num_iterations makes the search reliable. Proved: upper bounds for all programs, the violation for 40 variables, and a lower bound close to one while the rotations last."},
{"property": "C106", "status": "partial", "theorems": ["Verif.C106_trials_partial", "Verif.C106_feasible_partial", "Verif.C106_probability_partial", "Verif.C106_feasible_violated", "Verif.C106_trials_violated"], "note": "False for maximization (the sign error of C31) and for infeasible answers with smaller values than feasible ones (witnesses proved). Proved for minimization: values do not get worse, the status when feasible answers are better, the probability of the optimum for independent draws of any distribution."},
{"property": "C107", "status": "partial", "theorems": ["Verif.C107_agree_partial", "Verif.C107_violated"], "note": "False where the QUBO is not exact (witness proved: values 4 and 2, both SUCCESS). Proved for all feasible programs with an exact QUBO whose coefficients are multiples of some g > 2e-10."},
{"property": "C108", "status": "partial", "theorems": ["Verif.C108_build", "Verif.C108_meaning", "Verif.C108_qubo", "Verif.C108_ising", "Verif.C108_min_eigen", "Verif.C108_recursive", "Verif.C108_admm", "Verif.C108_clean", "Verif.C108_grover_partial", "Verif.C108_local_partial", "Verif.C108_violated", "Verif.C108_grover_violated"], "note": "False for COBYLA/SLSQP with several trials and for the order of the raw samples of Grover (witnesses proved). Proved in full for the QUBO, the Ising operator, MinimumEigenOptimizer and RecursiveMinimumEigenOptimizer with any eigensolvers, and ADMM; for Grover everything but the raw samples; for COBYLA and SLSQP with one trial."},
{"property": "C109", "status": "partial", "theorems": ["Verif.C109_build", "Verif.C109_meaning", "Verif.C109_qubo", "Verif.C109_ising", "Verif.C109_min_eigen", "Verif.C109_recursive", "Verif.C109_admm", "Verif.C109_solver_input", "Verif.C109_local_partial", "Verif.C109_grover_partial", "Verif.C109_violated", "Verif.C109_violated_large", "Verif.C109_grover_violated"], "note": "False for Grover when a constant is zero and for COBYLA/SLSQP with maximization or values of 1e20 (witnesses proved). Proved in full for the QUBO, the Ising operator, MinimumEigenOptimizer and RecursiveMinimumEigenOptimizer with any eigensolvers, and ADMM with continuous optimizers that ignore the constant; partially for Grover and multi-start."},
{"property": "C11", "status": "partial", "theorems": ["Verif.C11_violated", "Verif.C11_round_trip_partial"], "note": "False for constant objectives: from_ising rejects the identity (witness proved). Holds when the objective is not constant on bitstrings."},
{"property": "C110", "status": "proved", "theorems": ["Verif.C110_clique_stable", "Verif.C110_tour_route", "Verif.C110_partition_cut", "Verif.C110_cover_packing"], "note": "Complete graphs with weights for the tours (others raise KeyError, C49, C50), at least two nodes."},
{"property": "C111", "status": "partial", "theorems": ["Verif.C111_equations", "Verif.C111_feasible_partial", "Verif.C111_fixing_partial", "Verif.C111_violated"], "note": "False for integer variables fixed at fractions (witness proved). Proved for substitutions with integral values of integer variables, bounds and coordinates up to the package's INFINITY, no variable named __CONSTANT__."},
{"property": "C112", "status": "partial", "theorems": ["Verif.C112_build", "Verif.C112_meaning", "Verif.C112_qubo_partial", "Verif.C112_auto_penalty", "Verif.C112_ising", "Verif.C112_min_eigen", "Verif.C112_local_partial", "Verif.C112_solver_input", "Verif.C112_violated", "Verif.C112_violated_large", "Verif.C112_recursive_violated"], "note": "False for the automatic penalty, the recursive optimizer (absolute cutoff) and values of 1e20 in the multi-start loop (witnesses proved). Proved for given penalties, the operator, the minimum eigen optimizer with scale-free solvers and the multi-start loop below 1e20."},
{"property": "C113", "status": "partial", "theorems": ["Verif.C113_step2", "Verif.C113_returned_partial", "Verif.C113_violated"], "note": "False for the returned point with the default parameters (witness proved for any exact solvers and any number of iterations). Proved for the second block in every iterate, and for the returned point with two blocks and residual zero."},
{"property": "C114", "status": "partial", "theorems": ["Verif.C114_meaning", "Verif.C114_ising", "Verif.C114_lookup", "Verif.C114_named", "Verif.C114_slack_partial", "Verif.C114_bits_partial", "Verif.C114_qubo_partial", "Verif.C114_min_eigen_partial", "Verif.C114_grover_partial", "Verif.C114_local", "Verif.C114_substitute_partial", "Verif.C114_recursive_partial", "Verif.C114_name_blind", "Verif.C114_admm_partial", "Verif.C114_admm_solvers", "Verif.C114_violated", "Verif.C114_recursive_violated"], "note": "False for names with the delimiter @ and, in the recursive optimizer, for the name __CONSTANT__ (witnesses proved). Proved for all names: feasibility, lookup, operator, COBYLA, SLSQP; for names without @: both converters, the QUBO, MinimumEigenOptimizer, GroverOptimizer and ADMMOptimizer, with independent renamings of variables and constraints; with __CONSTANT__ not renamed also substitution and RecursiveMinimumEigenOptimizer."},
{"property": "C115", "status": "proved", "theorems": ["Verif.C115_feasible", "Verif.C115_penalty", "Verif.C115_slack_errors", "Verif.C115_slack", "Verif.C115_qubo_errors", "Verif.C115_qubo"], "note": "All programs, orders and points; see DESIGN.md for the comparison of converted programs."},
{"property": "C116", "status": "proved", "theorems": ["Verif.C116_feasible", "Verif.C116_slack_errors", "Verif.C116_slack", "Verif.C116_penalty", "Verif.C116_bits_errors", "Verif.C116_bits", "Verif.C116_qubo_errors", "Verif.C116_qubo"], "note": "All programs, orders of the variables and points; for IntegerToBinary and the QUBO the kind of the error is not compared."},
{"property": "C117", "status": "proved", "theorems": ["Verif.C117_build", "Verif.C117_meaning", "Verif.C117_feasible", "Verif.C117_slack", "Verif.C117_bits", "Verif.C117_penalty", "Verif.C117_qubo", "Verif.C117_min_eigen", "Verif.C117_grover", "Verif.C117_solver_input"], "note": "All programs and all sets of constraints multiplied by -1."},
{"property": "C118", "status": "proved", "theorems": ["Verif.C118_qubo", "Verif.C118_local", "Verif.C118_goemans", "Verif.C118_admm"], "note": "All programs, converters and solvers; for ADMM well formed programs whose objective is as wide as the program."},
{"property": "C12", "status": "partial", "theorems": ["Verif.C12_violated", "Verif.C12_objective_partial", "Verif.C12_extension_exists"], "note": "False when a variable is named __CONSTANT__ (witness proved). Holds for all other programs, substitutions and points."},
{"property": "C13", "status": "partial", "theorems": ["Verif.C13_violated", "Verif.C13_feasibility_partial", "Verif.C13_variables", "Verif.C13_feasible_partial", "Verif.C13_result_wf"], "note": "False for integrality (witness proved). Bounds and constraints are preserved for points up to the package's INFINITY and sane bounds; C13_variables lists the variables that remain."},
{"property": "C14", "status": "partial", "theorems": ["Verif.C14_violated", "Verif.C14_rejects_partial", "Verif.C14_accepts_partial", "Verif.C14_status_outside", "Verif.C14_status_exact"], "note": "False for forward chains (KeyError) and crossing bounds (exception instead of INFEASIBLE) (witness proved). Other invalid substitutions are rejected with QiskitOptimizationError; valid ones with a point inside the bounds are accepted; constants outside the bounds give status INFEASIBLE, and without constraints nothing else does for substitutions of constants."},
{"property": "C15", "status": "proved", "theorems": ["Verif.C15_encoding"], "note": "All integral bounds lb < ub, with the exact logarithm; C88 has the floating point one."},
{"property": "C16", "status": "partial", "theorems": ["Verif.C16_violated", "Verif.C16_preserved_partial", "Verif.C16_form", "Verif.C16_error", "Verif.C16_preserved_linear", "Verif.C16_bounds_partial", "Verif.C16_feasible_partial", "Verif.C16_succeeds"], "note": "False for products of two integer variables with a non-zero lower bound (witness proved) and for tightened binary bounds (C25). Proved for all other programs and points; the exact error for all programs (C16_error); success of the conversion proved as well."},
{"property": "C17", "status": "partial", "theorems": ["Verif.C17_violated", "Verif.C17_integer_slack_partial", "Verif.C17_form", "Verif.C17_exact"], "note": "False when a continuous variable occurs in an inequality with integer coefficients (witness proved) and for tightened binary bounds. Proved for all other programs, all points. C17_form and C17_exact give every constraint and variable of the result, in all modes."},
{"property": "C18", "status": "partial", "theorems": ["Verif.C18_violated", "Verif.C18_continuous_slack_partial", "Verif.C18_forward", "Verif.C18_optimal"], "note": "False for tightened binary bounds (witness proved); proved for all other programs, all points."},
{"property": "C19", "status": "partial", "theorems": ["Verif.C19_violated", "Verif.C19_objective_partial", "Verif.C19_rejects", "Verif.C19_accepts"], "note": "Objective identity proved for all programs, penalties and points; linear inequalities are rejected, equality programs accepted. Quadratic inequalities are not rejected (witness proved)."},
{"property": "C20", "status": "partial", "theorems": ["Verif.C20_violated", "Verif.C20_violated_integer", "Verif.C20_exact_partial", "Verif.C20_exact_given"], "note": "False for fractional coefficients (penalty 1e5 is too small) and for integer variables with a range above one (witnesses proved). Proved for 0/1 variables with integer coefficients, and for any given penalty above the sum of the absolute coefficients."},
{"property": "C21", "status": "partial", "theorems": ["Verif.C21_violated", "Verif.C21_violated_bounds", "Verif.C21_accounted_partial", "Verif.C21_auto_positive"], "note": "False for quadratic constraints and tightened binary bounds (witnesses proved). Proved for linear constraints and binary bounds [0,1]."},
{"property": "C22", "status": "partial", "theorems": ["Verif.C22_violated", "Verif.C22_exact_partial", "Verif.C22_exact_given", "Verif.C22_value"], "note": "False for products of integer variables with non-zero lower bounds (witness proved, cause C16) and tightened binary bounds (C25). Proved for all other compatible programs with a feasible point, all optimal points of the QUBO, for the automatic penalty and for large enough given penalties. `C22_value` gives the objective of the QUBO at every point, with the error of the products, for every penalty."},
{"property": "C23", "status": "proved", "theorems": ["Verif.C23_qubo"], "note": "All well-formed programs, all penalties."},
{"property": "C24", "status": "partial", "theorems": ["Verif.C24_violated", "Verif.C24_converts_partial"], "note": "False for an integer variable with equal bounds and for names containing '@' (witnesses proved). Proved for integral bounds, lb < ub, names without '@'."},
{"property": "C25", "status": "partial", "theorems": ["Verif.C25_violated", "Verif.C25_survive_partial"], "note": "False for all three converters (witness proved): binary variables get the bounds [0,1] back. Proved for untightened bounds."},
{"property": "C26", "status": "proved", "theorems": ["Verif.C26_merge", "Verif.C26_sorted", "Verif.C26_first", "Verif.C26_accepts"], "note": "All programs, all sample lists, all interpretation functions of the converters."},
{"property": "C27", "status": "partial", "theorems": ["Verif.C27_vector", "Verif.C27_counts", "Verif.C27_agree", "Verif.C27_dictFn", "Verif.C27_violated", "Verif.C27_violated_complex"], "note": "False for dictionaries whose keys are in Qiskit order (last character is qubit 0) and for complex amplitudes of dictionary states (witnesses proved). Proved for statevectors and for keys read left to right; the three forms agree."},
{"property": "C28", "status": "partial", "theorems": ["Verif.C28_optimum_partial", "Verif.C28_violated", "Verif.C28_violated_threshold"], "note": "False where the QUBO is not exact (C22) and where no basis state reaches probability 1e-6 (witnesses proved). Proved for all programs for which C22_exact_partial applies and all ground states with a basis state above the threshold."},
{"property": "C29", "status": "proved", "theorems": ["Verif.C29_result", "Verif.C29_length", "Verif.C29_constructor", "Verif.C29_accepts"], "note": "All programs, converters and points."},
{"property": "C30", "status": "partial", "theorems": ["Verif.C30_correlation", "Verif.C30_strongest", "Verif.C30_sign", "Verif.C30_unroll", "Verif.C30_unroll_accepts", "Verif.C30_objective_partial", "Verif.C30_objective_exact", "Verif.C30_terminates", "Verif.C30_violated"], "note": "Choice of the pair, sign of the identification, unrolling and termination proved for all programs and all sequences of eliminations. Equality of the objectives proved for coefficients that are multiples of some g > 2e-10, up to N^2/1e10 in general; false in general because coefficients of size at most 1e-10 are dropped (witness proved)."},
{"property": "C31", "status": "partial", "theorems": ["Verif.C31_best_partial", "Verif.C31_single_partial", "Verif.C31_maximize_last", "Verif.C31_maximize_partial", "Verif.C31_maximize_first", "Verif.C31_violated", "Verif.C31_accepts"], "note": "False for maximization with several trials (witness proved). Proved for minimization with any number of trials and for a single trial."},
{"property": "C32", "status": "proved", "theorems": ["Verif.C32_cobyla", "Verif.C32_slsqp", "Verif.C32_objective", "Verif.C32_gradient", "Verif.C32_status"], "note": "All programs whose expressions have the program's own number of columns (the others cannot be evaluated, C54)."},
{"property": "C33", "status": "proved", "theorems": ["Verif.C33_best"], "note": "All programs, converters, outcome functions that report values of the function of the oracle (fitting the value register), all rotation draws."},
{"property": "C34", "status": "proved", "theorems": ["Verif.C34_sign", "Verif.C34_decode", "Verif.C34_key", "Verif.C34_admm_sign"], "note": "Sign flips of the Grover and ADMM optimizers for all objectives; decoding for all register sizes."},
{"property": "C35", "status": "proved", "theorems": ["Verif.C35_residual", "Verif.C35_best", "Verif.C35_returned"], "note": "For all programs, solvers, norms, clocks and parameters, over the whole loop including the integer conversion and the final interpretation."},
{"property": "C36", "status": "partial", "theorems": ["Verif.C36_reassemble", "Verif.C36_split", "Verif.C36_step1_partial", "Verif.C36_accepts", "Verif.C36_omitted_zero", "Verif.C36_step1_violated", "Verif.C36_equality_violated", "Verif.C36_product_violated"], "note": "Splitting and reassembling proved. The second half is false: variables that occur only as second factor of a product or only with negative coefficients in equalities are left out of step 1 (witnesses proved); exact characterisation of the selected variables proved, and that omitted ones are zero in every result."},
{"property": "C37", "status": "partial", "theorems": ["Verif.C37_trace", "Verif.C37_dual_partial", "Verif.C37_dual_violated", "Verif.C37_rho_increase", "Verif.C37_rho_violated", "Verif.C37_rho_partial", "Verif.C37_rho_ten_percent"], "note": "False: from iteration 2 on z is compared with an older z or with y, and rho is multiplied by tau_decr > 1 when the dual residual dominates (proved). What is recorded is characterised exactly; iterations 0 and 1, the increase, and factors below one are right."},
{"property": "C38", "status": "partial", "theorems": ["Verif.C38_initial", "Verif.C38_domain", "Verif.C38_mean_partial", "Verif.C38_point", "Verif.C38_violated"], "note": "Clamping proved. Aggregation proved for points with coordinates 0..9; false in general, since points are keyed by concatenated digits (witness proved)."},
{"property": "C39", "status": "partial", "theorems": ["Verif.C39_value", "Verif.C39_unique", "Verif.C39_best_partial", "Verif.C39_probability", "Verif.C39_success", "Verif.C39_violated"], "note": "Values, merging and probabilities proved for all options; maximality proved with sort_cuts, false without (witness proved)."},
{"property": "C40", "status": "proved", "theorems": ["Verif.C40_meaning", "Verif.C40_rejects", "Verif.C40_accepts"], "note": "For all docplex models and points; what is rejected and what is accepted is proved as well."},
{"property": "C41", "status": "partial", "theorems": ["Verif.C41_partial", "Verif.C41_violated_bounds", "Verif.C41_violated_names"], "note": "False for binary variables with changed bounds and for equal names of a linear and a degenerate quadratic constraint (witnesses proved); proved otherwise, for constraints without terms that always hold."},
{"property": "C42", "status": "proved", "theorems": ["Verif.C42_model", "Verif.C42_rejects", "Verif.C42_interpret", "Verif.C42_cut"], "note": "For graphs of every size; the missing-node case, which raises, is proved as well."},
{"property": "C43", "status": "proved", "theorems": ["Verif.C43_stable_set", "Verif.C43_vertex_cover", "Verif.C43_interpret", "Verif.C43_complement"], "note": "For graphs of every size."},
{"property": "C44", "status": "proved", "theorems": ["Verif.C44_maximum", "Verif.C44_size", "Verif.C43_interpret"], "note": "For graphs of every size, with and without a given clique size."},
{"property": "C45", "status": "proved", "theorems": ["Verif.C45_model", "Verif.C42_interpret"], "note": "For graphs of every size."},
{"property": "C46", "status": "proved", "theorems": ["Verif.C46_model", "Verif.C46_rejects", "Verif.C46_interpret"], "note": "For every number of items; too few weights raise IndexError."},
{"property": "C47", "status": "proved", "theorems": ["Verif.C47_model"], "note": "For every list of numbers."},
{"property": "C48", "status": "proved", "theorems": ["Verif.C48_packing", "Verif.C48_cover", "Verif.C48_interpret"], "note": "For every list of subsets."},
{"property": "C49", "status": "proved", "theorems": ["Verif.C49_feasible", "Verif.C49_rejects", "Verif.C49_interpret", "Verif.C49_interpret_any", "Verif.C49_objective"], "note": "For every number of nodes (the length for at least two)."},
{"property": "C50", "status": "proved", "theorems": ["Verif.C50_feasible", "Verif.C50_interpret", "Verif.C50_loads"], "note": "For every graph, depot and number of vehicles; feasibility is characterised in both directions."},
{"property": "C51", "status": "partial", "theorems": ["Verif.C51_gset_partial", "Verif.C51_violated_gset", "Verif.C51_violated_type", "Verif.C51_violated_eof", "Verif.C51_tsplib_partial", "Verif.C51_radius", "Verif.C51_program"], "note": "False: parse_gset_format stores the node instead of the weight, parse_tsplib_format rejects every file with a TYPE or EDGE_WEIGHT_TYPE line or a final EOF line. Proved: exactly when the matrix is right, that files without these lines are read, that the geometric graph is complete, and that instances read from files have a program."},
{"property": "C52", "status": "proved", "theorems": ["Verif.C52_counts", "Verif.C52_vector", "Verif.C52_agree", "Verif.C52_stateFn"], "note": "For all numbers of qubits; amplitudes with rational parts."},
{"property": "C53", "status": "proved", "theorems": ["Verif.C53_convert"], "note": ""},
{"property": "C54", "status": "partial", "theorems": ["Verif.C54_violated", "Verif.C54_evaluable_partial"], "note": "False when a variable is added after a constraint or objective (witness proved); holds when variables come first."},
{"property": "C55", "status": "partial", "theorems": ["Verif.C55_violated", "Verif.C55_succeeds_partial", "Verif.C55_rejects"], "note": "False when a linear and a quadratic inequality share a name (witness proved); proved otherwise."},
{"property": "C56", "status": "partial", "theorems": ["Verif.C56_guess_partial", "Verif.C56_violated", "Verif.C56_exists_iff", "Verif.C56_first"], "note": "False for a one-sided bound beyond the clip value (witness proved) and, in the first trial, for bounds excluding zero (C56_first). C56_exists_iff: exactly when a guess can be drawn."},
{"property": "C57", "status": "partial", "theorems": ["Verif.C57_state_partial", "Verif.C57_counts", "Verif.C57_violated", "Verif.C57_violated_merge"], "note": "False for shot based backends (witnesses proved with exact square roots). Proved for statevector outcomes."},
{"property": "C58", "status": "partial", "theorems": ["Verif.C58_terminates_partial", "Verif.C58_not_early", "Verif.C58_violated"], "note": "All programs, keys measured and draws, with an explicit bound, if values and differences fit into the value register. Otherwise violated: with two value qubits the search for the minimum of 2x goes on for ever. That the search is not given up early is proved for all runs."},
{"property": "C59", "status": "partial", "theorems": ["Verif.C59_domain_partial", "Verif.C59_anticorrelated", "Verif.C59_violated"], "note": "False for eliminations x_i = 1 - x_j: the bounds of x_j become [0, 0] (general theorem and end-to-end witness). Proved when all eliminations identify variables."},
{"property": "C60", "status": "partial", "theorems": ["Verif.C60_value_partial", "Verif.C60_violated"], "note": "False without converters (witness proved); proved for every non-empty list of converters."},
{"property": "C61", "status": "proved", "theorems": ["Verif.C61_dict", "Verif.C61_dict_value", "Verif.C61_dict_accepts", "Verif.C61_list"], "note": "Dictionary and list input; sparse input is taken over unchanged by definition."},
{"property": "C62", "status": "proved", "theorems": ["Verif.C62_step1", "Verif.C62_optimal"], "note": "For every iteration of every run. Binary variables that are not selected (C36) are zero."},
{"property": "C63", "status": "partial", "theorems": ["Verif.C63_shape", "Verif.C63_objective_partial", "Verif.C63_optimal", "Verif.C63_violated"], "note": "Variables, constraints and splitting proved for every iteration. The objective is right when no binary variable is multiplied by another variable; products of binary variables stay in it (witness proved)."},
{"property": "C64", "status": "proved", "theorems": ["Verif.C64_step3", "Verif.C64_minimum", "Verif.C64_multipliers"], "note": "For every iteration of every run."},
{"property": "C65", "status": "partial", "theorems": ["Verif.C65_separable_partial", "Verif.C65_violated"], "note": "Proved for the products of binary and continuous variables of the program given by the user. False with integer variables, whose products with continuous variables pass the check (witness proved)."},
{"property": "C66", "status": "partial", "theorems": ["Verif.C66_single", "Verif.C66_best_partial", "Verif.C66_rejects", "Verif.C66_violated", "Verif.C66_violated_infeasible"], "note": "False: the chosen sample is decoded twice and chosen by value alone (witnesses proved); proved for one initial solution and, with several, for problems whose variables are those of the QUBO."},
{"property": "C67", "status": "proved", "theorems": ["Verif.C67_initial", "Verif.C67_warm", "Verif.C67_mixer"], "note": "For all numbers of qubits, with exact real and complex arithmetic."},
{"property": "C68", "status": "partial", "theorems": ["Verif.C68_result_partial", "Verif.C68_value_violated", "Verif.C68_feasible_violated", "Verif.C68_failure_violated"], "note": "False for problems other than unconstrained max-cut and for the failure branch (proved); proved for max-cut objectives."},
{"property": "C69", "status": "partial", "theorems": ["Verif.C69_partial", "Verif.C69_violated"], "note": "False for binary variables with bounds other than 0 and 1 (witness proved); proved otherwise."},
{"property": "C70", "status": "partial", "theorems": ["Verif.C70_value_partial", "Verif.C70_inplace", "Verif.C70_violated"], "note": "False for converters=[] (the program of the caller becomes a minimization with a shifted constant, and fval is the shifted value). Proved for every non-empty list of converters; without converters it is proved what the program and the value become."},
{"property": "C71", "status": "proved", "theorems": ["Verif.C71_maxcut", "Verif.C71_stable_set", "Verif.C71_vertex_cover", "Verif.C71_clique", "Verif.C71_clique_size", "Verif.C71_partition", "Verif.C71_knapsack", "Verif.C71_number_partition", "Verif.C71_packing", "Verif.C71_cover", "Verif.C71_tsp", "Verif.C71_vrp"], "note": "For every solver that returns, for every diagonal operator, a state supported on basis states of minimal energy with at least one of probability 1e-6 or more; exhaustive_exact shows that there is one. Knapsack weights and the numbers to be partitioned are integers."},
{"property": "C72", "status": "proved", "theorems": ["Verif.C72_integer_to_binary", "Verif.C72_penalty", "Verif.C72_qubo", "Verif.C72_solve", "Verif.C72_new"], "note": "The caller does not modify the program that convert returns (it is _dst itself)."},
{"property": "C73", "status": "partial", "theorems": ["Verif.C73_optimal_partial", "Verif.C73_accepts_partial", "Verif.C73_violated"], "note": "For programs whose binary variables have the bounds 0 and 1 and whose constraints without terms hold; false for a binary variable fixed by its bounds (C73_violated), which to_docplex exports with the bounds 0 and 1."},
{"property": "C74", "status": "proved", "theorems": ["Verif.C74_cobyla", "Verif.C74_cobyla_accepts", "Verif.C74_slsqp", "Verif.C74_slsqp_accepts"], "note": "For COBYLA the points are those within the finite bounds (bounds of 1e20 or more are not passed on)."},
{"property": "C75", "status": "proved", "theorems": ["Verif.C75_support", "Verif.C75_probability", "Verif.C75_uniform", "Verif.C75_best"], "note": "QuadraticForm of the circuit library enters as a contract, with an instance; the Grover operator is that of Qiskit, up to a global phase."},
{"property": "C76", "status": "partial", "theorems": ["Verif.C76_clique", "Verif.C76_vertexCover", "Verif.C76_stableSet", "Verif.C76_partition", "Verif.C76_maxCut_partial", "Verif.C76_violated", "Verif.C76_tsp", "Verif.C76_tsp_weight", "Verif.C76_vrp", "Verif.C76_rejects"], "note": "False for max-cut if the nodes of the graph are not in ascending order (witness proved); proved for max-cut with ascending nodes and for all other applications."},
{"property": "C77", "status": "partial", "theorems": ["Verif.C77_tsp", "Verif.C77_vrp", "Verif.C77_vrp_rejects", "Verif.C77_vrp_seed", "Verif.C77_tsp_seed_partial", "Verif.C77_violated"], "note": "False for the seed 0 of Tsp.create_random_instance, which is ignored (witness proved); everything else proved for all draws within the range."},
{"property": "C78", "status": "proved", "theorems": ["Verif.C78_name", "Verif.C78_strip", "Verif.C78_read", "Verif.C78_roundtrip", "Verif.C78_unreadable"], "note": "The reader of docplex is an argument; the round trip has the hypotheses of C41."},
{"property": "C79", "status": "proved", "theorems": ["Verif.C79_promise", "Verif.C79_bound", "Verif.C79_maxcut"], "note": "Numbers are reals; the solver of the semidefinite program, the smallest eigenvalue and the Cholesky factorization are arguments with contracts, which are shown to be satisfiable; the random numbers are independent standard normal variables."},
{"property": "C80", "status": "partial", "theorems": ["Verif.C80_optimum_partial", "Verif.C80_near", "Verif.C80_violated"], "note": "Fails for coefficients below the cutoff of the shift of the objective (C80_violated). Proved exactly for coefficients that are multiples of some g > 2e-10 and for programs whose QUBO is exact, and up to 2 n^2 1e-10 for the QUBO of every program."},
{"property": "C81", "status": "partial", "theorems": ["Verif.C81_range", "Verif.C81_improve_partial", "Verif.C81_search_partial", "Verif.C81_all", "Verif.C81_violated"], "note": "Fails for three better keys out of four with two key qubits (C81_violated: the probability of a miss stays 1/4). Proved in all other cases: at least 1/8 per measurement once the range has grown, 1/4 if at most half of the keys are better. The circuit that writes the objective values is a contract (FormSpec), with a concrete instance."},
{"property": "C82", "status": "partial", "theorems": ["Verif.C82_matrix_partial", "Verif.C82_ground", "Verif.C82_energy_partial", "Verif.C82_expectation_partial", "Verif.C82_mean_partial", "Verif.C82_optimum_partial", "Verif.C82_violated"], "note": "Fails for samples with probability below 1e-6 (C82_violated) and for constant objectives (C09_violated). Ground states are proved for all programs; the matrix, the smallest eigenvalue and expectation values for non-constant objectives; the mean of the samples up to the dropped part; the optimizer up to 19 qubits in the cases of C28."},
{"property": "C83", "status": "proved", "theorems": ["Verif.C83_size", "Verif.C83_least"], "note": "For programs with integral bounds; the largest slack is stated over all points within the bounds."},
{"property": "C84", "status": "proved", "theorems": ["Verif.C84_qubo", "Verif.C84_twice"], "note": "For any penalty, also an automatic one."},
{"property": "C85", "status": "partial", "theorems": ["Verif.C85_residual_partial", "Verif.C85_violated"], "note": "The violation is bounded by the residual plus the auxiliary variable y, which is zero with two blocks; with three blocks (the default) the residual alone says nothing, by a proved counterexample for all exact solvers."},
{"property": "C86", "status": "partial", "theorems": ["Verif.C86_measured_partial", "Verif.C86_expectation_partial", "Verif.C86_violated"], "note": "Proved in full for equality constraints and basis states of probability 1e-6 or more, with a bound by the QUBO values and the expectation value in general; with inequalities the answer can be infeasible although a sample is feasible, by a proved counterexample."},
{"property": "C87", "status": "partial", "theorems": ["Verif.C87_meaningful_partial", "Verif.C87_wellformed_partial", "Verif.C87_binary_partial", "Verif.C87_width_violated", "Verif.C87_binary_violated"], "note": "Proved for all sequences of calls with coefficients that are not wider than the program and without setters that give a binary variable bounds outside 0..1; both exceptions are proved violations."},
{"property": "C88", "status": "partial", "theorems": ["Verif.C88_encoding_partial", "Verif.C88_exact", "Verif.C88_violated"], "note": "Proved for all ranges below 2^50 - 2 and any correctly rounded logarithm; false for the range 2^50 - 2 (witness proved)."},
{"property": "C89", "status": "partial", "theorems": ["Verif.C89_linear_partial", "Verif.C89_quadratic_partial", "Verif.C89_types", "Verif.C89_violated", "Verif.C89_admm_partial", "Verif.C89_admm_violated"], "note": "Proved for floating point matrices (dictionaries, lists with fractions) and integral values; false for fractions assigned in integer matrices, also in step 2 of ADMM (witnesses proved)."},
{"property": "C90", "status": "partial", "theorems": ["Verif.C90_edit", "Verif.C90_bounds", "Verif.C90_succeeds_partial", "Verif.C90_violated"], "note": "The effect of successful assignments proved in full, and exactly which bounds are accepted; rejected assignments in C04. Assignment of coefficients succeeds for the variables that existed when the expression was made; false for later variables (witness proved)."},
{"property": "C91", "status": "proved", "theorems": ["Verif.C91_dict", "Verif.C91_list", "Verif.C91_numbers", "Verif.C91_sequence", "Verif.C91_public"], "note": ""},
{"property": "C92", "status": "partial", "theorems": ["Verif.C92_load_partial", "Verif.C92_violated"], "note": "False: the old program is lost (witness proved for every program). Proved: what remains is a meaningful program made by ordinary calls."},
{"property": "C93", "status": "partial", "theorems": ["Verif.C93_linear", "Verif.C93_linear_dict", "Verif.C93_quadratic_dict", "Verif.C93_quadratic_partial", "Verif.C93_mixed", "Verif.C93_violated"], "note": "False for quadratic[i, j] with one negative index that counts to the larger variable (witness proved, and C93_mixed says what happens instead). Proved for linear expressions, for dictionaries of both kinds, and for all other pairs of keys."},
{"property": "C94", "status": "proved", "theorems": ["Verif.C94_optimal", "Verif.C94_once"], "note": ""},
{"property": "C95", "status": "proved", "theorems": ["Verif.C95_stops", "Verif.C95_none"], "note": ""},
{"property": "C96", "status": "proved", "theorems": ["Verif.C96_bound", "Verif.C96_presolver", "Verif.C96_admm"], "note": ""},
{"property": "C97", "status": "partial", "theorems": ["Verif.C97_partial", "Verif.C97_violated"], "note": "False for errors at the zeros (witness proved for every tolerance): the tests are for exact zeros. Proved for errors at the ones."},
{"property": "C98", "status": "proved", "theorems": ["Verif.C98_objective", "Verif.C98_constraint", "Verif.C98_feasible", "Verif.C98_ising"], "note": ""},
{"property": "C99", "status": "partial", "theorems": ["Verif.C99_equality_partial", "Verif.C99_slack_partial", "Verif.C99_violated", "Verif.C99_violated_zero"], "note": "False for inequalities without slack and for equalities with cancellation (witnesses proved for every rounding). Proved for equalities with nonnegative data and for inequalities with relative slack 1e-9, up to a million terms."}
]}
