{"id": "C01", "title": "Quadratic expressions keep the polynomial they were given", "statement": "A QuadraticExpression built from a matrix or from a dictionary of (i, j) -> v entries evaluates at every point x to the sum of v*x_i*x_j over the entries given, no matter how entries are split between (i, j) and (j, i) (if several dictionary keys, such as a name and an index, address the same position, the last one counts); its stored coefficients only occupy i <= j, reading coefficient (i, j) and (j, i) gives the same number, and the symmetric form (to_dict/to_array with symmetric=True) denotes the same polynomial and is symmetric.", "quantifier": "all numbers of variables, all coefficient dictionaries / matrices, all points", "why_tests_cant": "A test fixes one matrix; the folding of the lower triangle has to be right for every pattern of entries.", "anchors": ["qiskit_optimization/problems/quadratic_expression.py:QuadraticExpression._coeffs_to_dok_matrix,_triangle_matrix,_symmetric_matrix,__getitem__,evaluate,to_dict"]}
{"id": "C02", "title": "Gradients are the exact derivative of the objective", "statement": "For the objective f and all points x, h: f(x+h) - f(x) - gradient(x).h equals the pure quadratic part of f at h (an exact second order expansion), so the vector returned by evaluate_gradient is the derivative of evaluate; likewise for linear and quadratic expressions and constraints.", "quantifier": "all objectives, all points x and directions h", "why_tests_cant": "Tests compare a gradient with a number at one point; being the derivative is a statement about all points and directions.", "anchors": ["qiskit_optimization/problems/quadratic_objective.py:QuadraticObjective.evaluate_gradient", "qiskit_optimization/problems/quadratic_expression.py:QuadraticExpression.evaluate_gradient", "qiskit_optimization/problems/linear_expression.py:LinearExpression.evaluate_gradient"]}
{"id": "C03", "title": "Name lookup stays consistent with the variable and constraint lists", "statement": "After any sequence of successful builder calls (adding variables singly or in batches, adding and removing linear/quadratic constraints, setting objectives, clear), get_variable(name) / get_linear_constraint(name) / get_quadratic_constraint(name) return the element that carries that name, every element is found under its own name, and names are pairwise distinct.", "quantifier": "all finite sequences of successful builder calls", "why_tests_cant": "The index dictionaries are maintained incrementally next to the lists; only an induction over call sequences shows they never drift.", "anchors": ["qiskit_optimization/problems/quadratic_program.py:QuadraticProgram._add_variables,linear_constraint,quadratic_constraint,remove_linear_constraint,remove_quadratic_constraint,clear,get_variable"]}
{"id": "C04", "title": "A rejected builder call leaves the program usable and unchanged", "statement": "When adding a variable or a constraint raises (bad bounds, bad sense, duplicate name), the program is left as it was before the call: same names resolvable, same elements.", "quantifier": "all programs and all failing builder calls", "why_tests_cant": "Tests check that an error is raised, hardly ever the state of the object after it, and never for all states.", "anchors": ["qiskit_optimization/problems/quadratic_program.py:QuadraticProgram._add_variables,linear_constraint,quadratic_constraint", "qiskit_optimization/problems/variable.py:Variable.__init__", "qiskit_optimization/problems/constraint.py:ConstraintSense.convert"]}
{"id": "C05", "title": "Automatically generated names are always available", "statement": "On any program, adding a variable without a name, or a constraint without a name, terminates, never fails because of a name clash, and yields a name no existing variable / constraint of that kind has - even if the user has already used names of the automatic pattern.", "quantifier": "all programs (any names already taken, any number of variables)", "why_tests_cant": "The naming loop searches upward without a bound; tests try a few taken names only.", "anchors": ["qiskit_optimization/problems/quadratic_program.py:QuadraticProgram._add_variable,_add_variables (_find_name),linear_constraint,quadratic_constraint"]}
{"id": "C06", "title": "Removing a constraint removes exactly that constraint", "statement": "remove_linear_constraint / remove_quadratic_constraint by index or by name deletes exactly the addressed constraint, keeps the order of all others, keeps every other constraint addressable by its name, and a point is feasible for the old program iff it is feasible for the new one and satisfies the removed constraint.", "quantifier": "all consistent programs, all valid indices and names", "why_tests_cant": "Positions of all later constraints shift; a test looks at one list.", "anchors": ["qiskit_optimization/problems/quadratic_program.py:QuadraticProgram.remove_linear_constraint,remove_quadratic_constraint"]}
{"id": "C07", "title": "Feasibility check is sound and complete", "statement": "For a point of the right length, get_feasibility_info returns exactly the variables whose bounds are violated and exactly the constraints that are violated, in order, and returns feasible = True iff there are none; inequality constraints are tested exactly and equality constraints up to a relative tolerance of 1e-9. A point of the wrong length is rejected.", "quantifier": "all programs, all points", "why_tests_cant": "All combinations of senses, linear and quadratic constraints and bound violations are covered at once.", "anchors": ["qiskit_optimization/problems/quadratic_program.py:QuadraticProgram.get_feasibility_info,is_feasible"]}
{"id": "C08", "title": "Feasible points respect the variable types", "statement": "If is_feasible(x) is True then x takes integral values on binary and integer variables.", "quantifier": "all programs, all points", "why_tests_cant": "A test for a fractional point exists only if someone thought about it; users read 'feasible' as including integrality.", "anchors": ["qiskit_optimization/problems/quadratic_program.py:QuadraticProgram.get_feasibility_info,is_feasible"]}
{"id": "C09", "title": "Ising energies equal objective values", "statement": "For a program with only binary variables and no constraints, to_ising returns an operator that is diagonal in the computational basis and an offset such that for every bitstring x (qubit i holds variable i) energy(x) + offset = sense * objective(x) where sense is 1 for minimization and -1 for maximization. Programs with other variables or with constraints are rejected.", "quantifier": "all such programs of any size, all bitstrings", "why_tests_cant": "Tests compare one printed operator; equality on all 2^n basis states for every n needs an algebraic proof.", "anchors": ["qiskit_optimization/problems/quadratic_program.py:QuadraticProgram.to_ising"]}
{"id": "C10", "title": "from_ising rebuilds the energy function", "statement": "For a diagonal operator whose terms contain one or two Pauli Zs, from_ising (with linear True or False) on an empty program yields a minimization program over that many binary variables with objective(x) = energy(x) + offset for every bitstring; operators with Pauli X/Y or with other Z-counts are rejected.", "quantifier": "all operators given as lists of Pauli terms, all offsets, all bitstrings", "why_tests_cant": "Terms interact through the shared diagonal of the QUBO matrix; tests use two or three terms.", "anchors": ["qiskit_optimization/problems/quadratic_program.py:QuadraticProgram.from_ising"]}
{"id": "C11", "title": "to_ising followed by from_ising preserves the problem", "statement": "Converting an unconstrained binary program to an Ising operator and back gives a program whose objective equals sense * objective of the original on every bitstring, hence has the same optimal solutions.", "quantifier": "all unconstrained binary programs", "why_tests_cant": "Round trips are tested on one example; here all programs.", "anchors": ["qiskit_optimization/problems/quadratic_program.py:QuadraticProgram.to_ising,from_ising"]}
{"id": "C12", "title": "Variable substitution preserves the objective", "statement": "substitute_variables(constants, variables) returns a program over the remaining variables whose objective at y equals the source objective at the extended point (substituted variables computed from y), with the same sense.", "quantifier": "all programs, all accepted substitutions, all points y", "why_tests_cant": "Substitution creates new linear and constant terms from quadratic ones; all combinations of kinds of factors matter.", "anchors": ["qiskit_optimization/problems/quadratic_program.py:SubstituteVariables.substitute_variables,_linear_expression,_quadratic_expression,_objective"]}
{"id": "C13", "title": "Variable substitution preserves feasibility", "statement": "If substitute_variables returns a program with status VALID, then a point y is feasible for it iff the extended point is feasible for the source; if it returns status INFEASIBLE then no extended point is feasible for the source.", "quantifier": "all programs, all accepted substitutions, all points y", "why_tests_cant": "Bounds are divided by coefficients of either sign, constraints migrate from quadratic to linear or vanish; tests check a few.", "anchors": ["qiskit_optimization/problems/quadratic_program.py:SubstituteVariables._variables,_linear_constraints,_quadratic_constraints,_feasible"]}
{"id": "C14", "title": "Contradictory substitutions are reported, not crashed on", "statement": "A substitution is rejected with QiskitOptimizationError exactly when it is invalid (same variable twice, zero coefficient, replaced by itself, replaced by a substituted variable), irrespective of the order in which the replacements are listed; when the substitution makes bounds contradictory the result has status INFEASIBLE.", "quantifier": "all programs, all substitution dictionaries and orders of their entries", "why_tests_cant": "Dictionary order and crossing bounds are rarely varied in tests.", "anchors": ["qiskit_optimization/problems/quadratic_program.py:SubstituteVariables._subs_dict,_variables", "qiskit_optimization/problems/variable.py:Variable.lowerbound,upperbound"]}
{"id": "C15", "title": "Integer encoding reaches exactly the integer range", "statement": "For an integer variable with integral bounds lb < ub, the binary encoding used by IntegerToBinary decodes every bit pattern to an integer in [lb, ub] and every integer in [lb, ub] is decoded from at least one bit pattern; the number of bits is floor(log2(ub-lb)) + 1.", "quantifier": "all integral bounds lb < ub", "why_tests_cant": "The bounded-coefficient encoding is irregular in ub-lb; tests check single ranges.", "anchors": ["qiskit_optimization/converters/integer_to_binary.py:IntegerToBinary._convert_var,interpret"]}
{"id": "C16", "title": "Integer-to-binary conversion preserves objective and constraints", "statement": "For the program returned by IntegerToBinary.convert, the objective and the truth of every linear and quadratic constraint at a point b equal those of the original program at interpret(b), and b is within bounds iff interpret(b) is (for integral b).", "quantifier": "all programs with finite integral integer bounds, all binary points", "why_tests_cant": "Products of two encoded integers expand into four groups of terms; single examples with zero lower bounds miss errors in the others.", "anchors": ["qiskit_optimization/converters/integer_to_binary.py:IntegerToBinary.convert,_convert_linear_coefficients_dict,_convert_quadratic_coefficients_dict,_substitute_int_var,interpret"]}
{"id": "C17", "title": "Integer slack variables preserve the feasible set", "statement": "With mode 'integer' (or 'auto'), a point x is feasible for the original program iff it can be extended by slack values to a feasible point of the converted program; the objective is unchanged and interpret drops exactly the slacks.", "quantifier": "all programs with integer constraint coefficients, all points", "why_tests_cant": "Rounding of right-hand sides, slack ranges and redundant slacks interact; all coefficient signs and bounds matter.", "anchors": ["qiskit_optimization/converters/inequality_to_equality.py:InequalityToEquality.convert,_add_integer_slack_var_linear_constraint,_add_integer_slack_var_quadratic_constraint,_calc_linear_bounds,_calc_quadratic_bounds,interpret"]}
{"id": "C18", "title": "Continuous slack variables preserve the feasible set", "statement": "With mode 'continuous', a point x is feasible for the original program iff it can be extended by slack values to a feasible point of the converted program; the objective is unchanged and interpret drops exactly the slacks.", "quantifier": "all programs, all points", "why_tests_cant": "As for integer slacks.", "anchors": ["qiskit_optimization/converters/inequality_to_equality.py:InequalityToEquality._add_continuous_slack_var_linear_constraint,_add_continuous_slack_var_quadratic_constraint"]}
{"id": "C19", "title": "Penalty objective is objective plus squared residuals", "statement": "LinearEqualityToPenalty.convert returns an unconstrained program with the same variables whose objective at every x equals objective(x) + sense * penalty * sum of (lhs(x) - rhs)^2 over the equality constraints; a program with an inequality constraint is rejected.", "quantifier": "all programs, all penalties, all points", "why_tests_cant": "The expansion (cross terms counted twice, merged with existing terms) must hold for all coefficient patterns.", "anchors": ["qiskit_optimization/converters/linear_equality_to_penalty.py:LinearEqualityToPenalty.convert"]}
{"id": "C20", "title": "Automatic penalties are large enough", "statement": "When no penalty is given, every optimal solution of the unconstrained program returned by LinearEqualityToPenalty is feasible and optimal for the original program, provided the original has a feasible solution.", "quantifier": "all programs accepted by the converter", "why_tests_cant": "Exactness compares all infeasible with all feasible points of exponentially many; a test looks at one instance.", "anchors": ["qiskit_optimization/converters/linear_equality_to_penalty.py:LinearEqualityToPenalty._auto_define_penalty,convert"]}
{"id": "C21", "title": "No constraint is silently lost by the penalty conversion", "statement": "LinearEqualityToPenalty either rejects a program or returns one that accounts for all its constraints: every constraint, linear or quadratic, and every variable bound that excludes a point in the source penalises or excludes that point in the result.", "quantifier": "all programs", "why_tests_cant": "Tests do not feed quadratic constraints or tightened binary bounds.", "anchors": ["qiskit_optimization/converters/linear_equality_to_penalty.py:LinearEqualityToPenalty.convert"]}
{"id": "C22", "title": "QUBO conversion is exact end to end", "statement": "For a program with binary and bounded integer variables and linear constraints with integer coefficients that has a feasible solution, every minimizer (or maximizer) of the QUBO returned by QuadraticProgramToQubo is mapped by interpret to a feasible and optimal solution of the original program, with the same objective value.", "quantifier": "all compatible programs of any size, all optimal solutions of the QUBO", "why_tests_cant": "This is the main promise of the package; tests compare one optimum of a few instances.", "anchors": ["qiskit_optimization/converters/quadratic_program_to_qubo.py:QuadraticProgramToQubo.convert,interpret"]}
{"id": "C23", "title": "QUBO conversion output is always a QUBO", "statement": "Whenever QuadraticProgramToQubo.convert returns, the result has only binary variables and no constraints, so that to_ising accepts it; and whenever get_compatibility_msg is non-empty convert raises.", "quantifier": "all programs", "why_tests_cant": "Closure of a pipeline over all inputs.", "anchors": ["qiskit_optimization/converters/quadratic_program_to_qubo.py:QuadraticProgramToQubo.convert,get_compatibility_msg", "qiskit_optimization/problems/quadratic_program.py:QuadraticProgram.to_ising"]}
{"id": "C24", "title": "Compatibility check predicts convertibility", "statement": "If get_compatibility_msg returns an empty message for a program, then QuadraticProgramToQubo.convert succeeds on it.", "quantifier": "all programs", "why_tests_cant": "Tests only try programs that work.", "anchors": ["qiskit_optimization/converters/quadratic_program_to_qubo.py:QuadraticProgramToQubo.get_compatibility_msg,is_compatible,convert"]}
{"id": "C25", "title": "Tightened binary bounds survive the converters", "statement": "If a binary variable has been fixed by its bounds (as substitute_variables does), the programs returned by IntegerToBinary, InequalityToEquality and LinearEqualityToPenalty exclude the same values of it.", "quantifier": "all programs", "why_tests_cant": "Binary variables with bounds other than [0, 1] only arise in combinations of features.", "anchors": ["qiskit_optimization/converters/integer_to_binary.py:IntegerToBinary.convert", "qiskit_optimization/converters/inequality_to_equality.py:InequalityToEquality.convert", "qiskit_optimization/converters/linear_equality_to_penalty.py:LinearEqualityToPenalty.convert", "qiskit_optimization/problems/quadratic_program.py:SubstituteVariables._variables"]}
{"id": "C26", "title": "Sample merging conserves probability and ranks feasible solutions first", "statement": "The samples of an optimizer result are obtained from the raw samples by interpreting each point, merging equal points and adding their probabilities: total probability is conserved, every point occurs once, each sample carries the original objective value and feasibility status of its point, and the list is ordered with feasible samples first and better objective values first; hence, if any raw sample is feasible, the first sample is a feasible one with the best objective value among all feasible samples.", "quantifier": "all programs, converters, raw sample lists", "why_tests_cant": "Order and merging depend on all samples at once.", "anchors": ["qiskit_optimization/algorithms/optimization_algorithm.py:OptimizationAlgorithm._interpret_samples"]}
{"id": "C27", "title": "Measurement results are decoded with the right bit order and probabilities", "statement": "Decoding an eigenstate given as counts or as a state vector yields for every basis state with probability at least the threshold exactly one sample with that probability, whose entry i is the bit of qubit i, and with the objective value of that point; counts and state vector decoding agree.", "quantifier": "all numbers of qubits, all states, all thresholds", "why_tests_cant": "Bit order errors vanish on palindromic or symmetric examples.", "anchors": ["qiskit_optimization/algorithms/optimization_algorithm.py:OptimizationAlgorithm._eigenvector_to_solutions"]}
{"id": "C28", "title": "MinimumEigenOptimizer returns an optimum for exact ground states", "statement": "If the eigensolver returns a state supported on minimal-energy basis states of the operator it is given, then MinimumEigenOptimizer.solve returns a feasible optimal solution of the original problem with fval its objective value and status SUCCESS (when the problem is feasible).", "quantifier": "all compatible problems, all ground states", "why_tests_cant": "Composition of conversion, Ising map, decoding, ranking and interpretation.", "anchors": ["qiskit_optimization/algorithms/minimum_eigen_optimizer.py:MinimumEigenOptimizer.solve,_solve_internal", "qiskit_optimization/algorithms/optimization_algorithm.py:OptimizationAlgorithm._interpret"]}
{"id": "C29", "title": "Results report consistent values", "statement": "A result produced by an optimizer's interpretation step has fval equal to the original objective at x, status SUCCESS iff x is feasible for the original problem, and result[name] / variables_dict agree with x; a result whose x has the wrong length is rejected.", "quantifier": "all problems, converters and points", "why_tests_cant": "A relation between fields for all inputs.", "anchors": ["qiskit_optimization/algorithms/optimization_algorithm.py:OptimizationResult.__init__,__getitem__,_interpret,_get_feasibility_status"]}
{"id": "C30", "title": "Recursive optimizer unrolls its replacements consistently", "statement": "In RecursiveMinimumEigenOptimizer every eliminated variable is assigned at the end the value determined by the chain of recorded replacements (equal to the representative if the strongest correlation of the samples was positive, complementary otherwise), and the objective of the reduced problem at a point equals the objective of the problem before reduction at the corresponding unrolled point, up to the additive constant recorded in the program.", "quantifier": "all binary problems, all sequences of eliminations", "why_tests_cant": "Chains of replacements have unbounded length.", "anchors": ["qiskit_optimization/algorithms/recursive_minimum_eigen_optimizer.py:RecursiveMinimumEigenOptimizer.solve,_find_strongest_correlation"]}
{"id": "C31", "title": "Multi-start returns the best trial", "statement": "multi_start_solve returns the point with the best objective value (smallest for minimization, largest for maximization) among all trials, with fval the objective value at that point.", "quantifier": "all sequences of local optimizer answers, all numbers of trials", "why_tests_cant": "Needs several trials with a particular order of qualities and both senses.", "anchors": ["qiskit_optimization/algorithms/multistart_optimizer.py:MultiStartOptimizer.multi_start_solve"]}
{"id": "C32", "title": "Constraint functions handed to COBYLA describe the feasible set", "statement": "The list of functions passed by CobylaOptimizer to the solver is such that all of them are >= 0 at x iff x satisfies all finite bounds and all constraints; SlsqpOptimizer passes bounds and eq/ineq functions with the same meaning.", "quantifier": "all programs with continuous variables, all points", "why_tests_cant": "A sign error for one sense shows only in instances where that constraint is active.", "anchors": ["qiskit_optimization/algorithms/cobyla_optimizer.py:CobylaOptimizer.solve", "qiskit_optimization/algorithms/slsqp_optimizer.py:SlsqpOptimizer.solve"]}
{"id": "C33", "title": "Grover adaptive search never loses the best value seen", "statement": "Assuming every measurement yields a key together with the two's complement value of objective(key) minus the threshold and values fit into the value register, GroverOptimizer returns a key whose objective value is at most the objective value of every key measured during the run; in particular the threshold always equals the objective value of the current best key.", "quantifier": "all objective functions with integer coefficients, all sequences of measurement outcomes, all stopping parameters", "why_tests_cant": "Outcomes are random; the invariant must hold for all outcome sequences.", "anchors": ["qiskit_optimization/algorithms/grover_optimizer.py:GroverOptimizer.solve,_bin_to_int"]}
{"id": "C34", "title": "Grover's sign flip and register decoding", "statement": "Turning a maximization problem into minimization negates the objective at every point, and two's complement decoding of a value register of n bits inverts encoding for all integers in [-2^(n-1), 2^(n-1)).", "quantifier": "all QUBO objectives, all register widths", "why_tests_cant": "All widths and all values.", "anchors": ["qiskit_optimization/algorithms/grover_optimizer.py:GroverOptimizer.solve,_bin_to_int", "qiskit_optimization/algorithms/admm_optimizer.py:ADMMOptimizer._turn_to_minimization"]}
{"id": "C35", "title": "ADMM merit and residual identify feasible best iterates", "statement": "The constraint residual computed by ADMMOptimizer is non-negative and is zero iff the iterate satisfies all constraints, and the returned iterate has the smallest merit among all iterations; hence, if some iterate is feasible and the merit weight is positive, the returned cost plus weighted violation is not worse than the cost of any feasible iterate.", "quantifier": "all problems, all sequences of iterates", "why_tests_cant": "A statement about all iterations.", "anchors": ["qiskit_optimization/algorithms/admm_optimizer.py:ADMMOptimizer._get_constraint_residual,_get_merit,_get_best_merit_solution"]}
{"id": "C36", "title": "ADMM splits and reassembles variables without mixing them up", "statement": "Splitting a problem's variables into binary and continuous indices and reassembling a solution puts every value back at the position of its variable; the step-1 QUBO involves every binary variable that occurs in the objective or in an all-binary equality constraint.", "quantifier": "all mixed problems, all value vectors", "why_tests_cant": "Every interleaving of variable types and every position in the upper triangular matrix.", "anchors": ["qiskit_optimization/algorithms/admm_optimizer.py:ADMMOptimizer._get_variable_indices,_revert_solution_indexes,_get_step1_indices"]}
{"id": "C37", "title": "ADMM penalty and dual residual follow the documented rules", "statement": "The dual residual at iteration k is rho times the norm of the change of z between iterations k-1 and k, and with residual balancing the penalty rho is increased when the primal residual dominates and decreased when the dual residual dominates.", "quantifier": "all sequences of iterates, all parameters greater than one", "why_tests_cant": "Affects convergence only, which tests on tiny problems do not observe.", "anchors": ["qiskit_optimization/algorithms/admm_optimizer.py:ADMMOptimizer.solve,_get_solution_residuals,_update_rho"]}
{"id": "C38", "title": "Warm start initial values and aggregation", "statement": "Initial variables for warm-start QAOA lie in [epsilon, 1-epsilon] and are unchanged if already there; aggregating results by mean returns each distinct sample point once, with fval of that point, and with probability the mean of its probabilities over the results (so that total probability stays one).", "quantifier": "all relaxed solutions, all epsilons, all lists of results", "why_tests_cant": "Merging of samples over several results.", "anchors": ["qiskit_optimization/algorithms/warm_start_qaoa_optimizer.py:WarmStartQAOAFactory.create_initial_variables,MeanAggregator.aggregate"]}
{"id": "C39", "title": "Goemans-Williamson candidate cuts are valued and deduplicated correctly", "statement": "The value reported for a candidate cut equals the total weight of edges between the two sides, complementary cuts are merged, and the candidate returned has maximal value among all candidates.", "quantifier": "all weighted graphs, all lists of candidate cuts", "why_tests_cant": "Randomised rounding gives arbitrary lists of cuts.", "anchors": ["qiskit_optimization/algorithms/goemans_williamson_optimizer.py:GoemansWilliamsonOptimizer.solve,_get_unique_cuts,_extract_adjacency_matrix,max_cut_value"]}
{"id": "C40", "title": "Loading a docplex model preserves its meaning", "statement": "from_docplex yields a program in which objective value and satisfaction of every constraint agree with the docplex model at every point, including constraints with variables and constants on both sides, for linear and quadratic constraints; unsupported constraints are rejected.", "quantifier": "all docplex models of supported elements, all points", "why_tests_cant": "Terms on both sides of constraints must be moved with the right sign for every combination.", "anchors": ["qiskit_optimization/problems/quadratic_program.py:QuadraticProgram.from_docplex"]}
{"id": "C41", "title": "Export to docplex and reload gives an equivalent program", "statement": "from_docplex(to_docplex(p)) has the same variables (names, bounds, types), the same objective function and the same feasible points as p.", "quantifier": "all programs", "why_tests_cant": "Only a few models are round-tripped in tests.", "anchors": ["qiskit_optimization/problems/quadratic_program.py:QuadraticProgram.to_docplex,from_docplex"]}
{"id": "C42", "title": "Max-cut model counts the weight of cut edges", "statement": "For every graph on nodes 0..n-1, the objective of Maxcut.to_quadratic_program at a 0/1 vector is the total weight of edges with ends on different sides, sense maximize, and interpret returns the two sides.", "quantifier": "all weighted graphs, all assignments", "why_tests_cant": "All graphs and all assignments.", "anchors": ["qiskit_optimization/applications/max_cut.py:Maxcut.to_quadratic_program,interpret"]}
{"id": "C43", "title": "Stable set and vertex cover models are exact", "statement": "The feasible 0/1 points of StableSet (VertexCover) are exactly the indicator vectors of independent sets (vertex covers) of the graph, the objective is the cardinality with the right sense, interpret returns the set; and x is a stable set iff its complement is a vertex cover.", "quantifier": "all graphs, all vertex subsets", "why_tests_cant": "Exactness over all subsets.", "anchors": ["qiskit_optimization/applications/stable_set.py:StableSet.to_quadratic_program,interpret", "qiskit_optimization/applications/vertex_cover.py:VertexCover.to_quadratic_program,interpret"]}
{"id": "C44", "title": "Clique model is exact", "statement": "The feasible 0/1 points of Clique are exactly the indicator vectors of cliques of the graph (of the given size if one is given), the objective without a size is the cardinality to be maximised, interpret returns the clique.", "quantifier": "all graphs, all vertex subsets, all sizes", "why_tests_cant": "Exactness over all subsets, relies on the complement graph.", "anchors": ["qiskit_optimization/applications/clique.py:Clique.to_quadratic_program,interpret"]}
{"id": "C45", "title": "Graph partition model is exact", "statement": "The feasible 0/1 points of GraphPartition are exactly those with floor(n/2) ones and the objective is the weight of edges between the parts.", "quantifier": "all weighted graphs, all assignments", "why_tests_cant": "All graphs and assignments.", "anchors": ["qiskit_optimization/applications/graph_partition.py:GraphPartition.to_quadratic_program,interpret"]}
{"id": "C46", "title": "Knapsack model is exact", "statement": "The feasible 0/1 points of Knapsack are exactly the selections with total weight at most the capacity, the objective is the total value (maximise), and interpret returns the selected items.", "quantifier": "all item lists and capacities, all selections", "why_tests_cant": "All selections.", "anchors": ["qiskit_optimization/applications/knapsack.py:Knapsack.to_quadratic_program,interpret"]}
{"id": "C47", "title": "Number partition model is exact", "statement": "A 0/1 point is feasible for NumberPartition iff the two lists returned by interpret have equal sums, and the two lists together are a rearrangement of the input numbers.", "quantifier": "all lists of numbers, all assignments", "why_tests_cant": "All assignments.", "anchors": ["qiskit_optimization/applications/number_partition.py:NumberPartition.to_quadratic_program,interpret"]}
{"id": "C48", "title": "Set packing and exact cover models are exact", "statement": "A 0/1 point is feasible for SetPacking iff the chosen subsets are pairwise disjoint, and feasible for ExactCover iff every element of the union of all subsets lies in exactly one chosen subset; the objectives count the chosen subsets; interpret returns the chosen subsets.", "quantifier": "all families of subsets, all selections", "why_tests_cant": "All selections.", "anchors": ["qiskit_optimization/applications/set_packing.py:SetPacking.to_quadratic_program,interpret", "qiskit_optimization/applications/exact_cover.py:ExactCover.to_quadratic_program,interpret"]}
{"id": "C49", "title": "TSP model is exact", "statement": "The feasible 0/1 points of Tsp are exactly the permutation matrices; for such a point interpret returns the permutation as a list of all nodes, the objective equals the length tsp_value of that closed tour, and every tour arises. At any other point interpret lists, for each position that does not have exactly one node, all nodes at this position in increasing order.", "quantifier": "all complete weighted graphs of any size, all points", "why_tests_cant": "n! tours for every n.", "anchors": ["qiskit_optimization/applications/tsp.py:Tsp.to_quadratic_program,interpret,tsp_value"]}
{"id": "C50", "title": "Vehicle routing interpretation yields closed routes covering all nodes", "statement": "For a feasible 0/1 point of VehicleRouting, interpret returns exactly num_vehicles routes, each starting and ending at the depot and consisting of consecutive edges, which together visit every other node exactly once and use exactly the selected edges; the objective is their total weight.", "quantifier": "all complete graphs, all depots and numbers of vehicles, all feasible points", "why_tests_cant": "Sub-tour elimination and greedy route extraction over all feasible points.", "anchors": ["qiskit_optimization/applications/vehicle_routing.py:VehicleRouting.to_quadratic_program,interpret"]}
{"id": "C51", "title": "Graph files are parsed faithfully", "statement": "parse_gset_format returns the symmetric adjacency matrix with the edge weights listed in the file, and parse_tsplib_format accepts files that declare TYPE : TSP and EDGE_WEIGHT_TYPE : EUC_2D.", "quantifier": "all well-formed files", "why_tests_cant": "No test reads a file with weights other than a convenient one.", "anchors": ["qiskit_optimization/applications/max_cut.py:Maxcut.parse_gset_format", "qiskit_optimization/applications/tsp.py:Tsp.parse_tsplib_format"]}
{"id": "C52", "title": "Most likely sample uses the same bit order for all state formats", "statement": "sample_most_likely returns, for counts and for state vectors, the bit pattern (entry i is qubit i) of a basis state of maximal weight.", "quantifier": "all numbers of qubits, all states", "why_tests_cant": "Bit order errors vanish on symmetric examples.", "anchors": ["qiskit_optimization/applications/optimization_application.py:OptimizationApplication.sample_most_likely"]}
{"id": "C53", "title": "Constraint senses are parsed totally and case-insensitively", "statement": "Sense conversion accepts exactly E/EQ/=/==, L/LE/</<=, G/GE/>/>= in any letter case and maps them to equality, at-most, at-least respectively, and rejects every other string.", "quantifier": "all strings", "why_tests_cant": "All strings.", "anchors": ["qiskit_optimization/problems/constraint.py:ConstraintSense.convert"]}
{"id": "C54", "title": "Programs can be evaluated at points of their own dimension", "statement": "After any sequence of successful builder calls or a successful conversion, is_feasible(x) and objective.evaluate(x) return a value (rather than raise) for every point x whose length is the number of variables of the program.", "quantifier": "all finite sequences of successful builder calls, all points of the right length", "why_tests_cant": "Expressions freeze their number of columns when created; tests add variables first and never evaluate a program extended afterwards.", "anchors": ["qiskit_optimization/problems/linear_expression.py:LinearExpression._coeffs_to_dok_matrix,evaluate", "qiskit_optimization/problems/quadratic_expression.py:QuadraticExpression.evaluate", "qiskit_optimization/problems/quadratic_program.py:QuadraticProgram._add_variables,is_feasible", "qiskit_optimization/converters/inequality_to_equality.py:InequalityToEquality.convert"]}
{"id": "C55", "title": "Slack conversion accepts every program with plain names", "statement": "InequalityToEquality.convert succeeds for every program whose names do not contain '@' (mode 'integer': whose inequalities have integer coefficients), and in mode 'integer' it raises for linear inequalities with a non-integer coefficient.", "quantifier": "all programs, all modes", "why_tests_cant": "The generated slack names can collide for combinations of constraint names no test uses (linear and quadratic constraints have separate name spaces).", "anchors": ["qiskit_optimization/converters/inequality_to_equality.py:InequalityToEquality.convert", "qiskit_optimization/problems/quadratic_program.py:QuadraticProgram.linear_constraint,quadratic_constraint"]}
{"id": "C56", "title": "Multi-start initial guesses exist and lie within the bounds", "statement": "MultiStartOptimizer.multi_start_solve draws, for every continuous program, every trial and every clip value, an initial guess (it does not raise), and each coordinate of the guess lies between the lower and the upper bound of its variable.", "quantifier": "all continuous programs, all trials, all clip values, all uniform draws", "why_tests_cant": "Tests use variables with both bounds inside the clip range; the failure needs a one-sided bound beyond it.", "anchors": ["qiskit_optimization/algorithms/multistart_optimizer.py:MultiStartOptimizer.multi_start_solve"]}
{"id": "C57", "title": "Grover samples carry the measured probabilities of their keys", "statement": "Every sample reported by GroverOptimizer has as probability the probability with which its key (assignment of the variables) was measured in the last run, summed over the values of the value register, for statevector and for shot based backends.", "quantifier": "all measurement outcomes", "why_tests_cant": "Tests compare samples on statevectors, where amplitudes can be squared back, or only check the best point.", "anchors": ["qiskit_optimization/algorithms/grover_optimizer.py:GroverOptimizer.solve,_measure,_get_probs"]}
{"id": "C58", "title": "Grover search terminates for every outcome sequence", "statement": "The search loop of GroverOptimizer ends after finitely many measurements, bounded in terms of the number of value qubits and the allowed number of iterations without improvement, whatever keys are measured (each with the value the circuit computes for it in the value register) and whatever rotation counts are drawn. It does not end early: when it ends, there have been more measurements than the allowed number of iterations without improvement, or more than there are keys, or at least 79 rotations in total.", "quantifier": "all programs, all sequences of measured keys, all widths of the value register, all random draws, all iteration limits", "why_tests_cant": "A statement about all infinite sequences of outcomes.", "anchors": ["qiskit_optimization/algorithms/grover_optimizer.py:GroverOptimizer.solve"]}
{"id": "C59", "title": "The reduced program keeps every assignment of the remaining variables", "statement": "In RecursiveMinimumEigenOptimizer the program obtained after eliminating variables admits (bounds and constraints) every 0/1 assignment of its remaining variables, so that the optimizer for the remaining variables can reach every point that satisfies the recorded replacements.", "quantifier": "all binary problems without constraints, all sequences of eliminations", "why_tests_cant": "Tests use a final optimizer that ignores the bounds of binary variables; the loss only shows with one that respects them.", "anchors": ["qiskit_optimization/algorithms/recursive_minimum_eigen_optimizer.py:RecursiveMinimumEigenOptimizer.solve", "qiskit_optimization/problems/quadratic_program.py:SubstituteVariables"]}
{"id": "C60", "title": "The recursive optimizer leaves the caller's program unchanged", "statement": "RecursiveMinimumEigenOptimizer.solve does not modify the program it is given, and the reported objective value is the value of that program at the reported point.", "quantifier": "all programs, all lists of converters, all optimizers", "why_tests_cant": "Tests always use converters, which copy the program; the modification in place is only visible without them.", "anchors": ["qiskit_optimization/algorithms/recursive_minimum_eigen_optimizer.py:RecursiveMinimumEigenOptimizer.solve"]}
{"id": "C61", "title": "Linear expressions keep the function they were given", "statement": "A LinearExpression built from a dictionary has one coefficient per variable, the last value given for that variable by name or by index (zero if there is none), and is rejected iff some key is no variable; built from a list it has the length and the coefficients of the list. Its value at a point is the corresponding sum.", "quantifier": "all dictionaries, lists and points", "why_tests_cant": "Tests use few entries and never mix names and indices of the same variable.", "anchors": ["qiskit_optimization/problems/linear_expression.py:LinearExpression._coeffs_to_dok_matrix,evaluate"]}
{"id": "C62", "title": "The QUBO of ADMM step 1 is the augmented Lagrangian", "statement": "In every iteration of ADMMOptimizer the program given to the QUBO optimizer has the selected binary variables, no constraints, and an objective that equals the augmented Lagrangian (objective, penalty for the equalities of binary variables, multiplier and proximal terms at the current z, y, lambda, rho) up to a constant; its answer is written to the right variables, so an optimal answer minimizes the augmented Lagrangian.", "quantifier": "all problems, all parameters, all iterations, all answers of the optimizers", "why_tests_cant": "Tests only look at the final answer of small problems; a wrong term of the QUBO still converges to the same point there.", "anchors": ["qiskit_optimization/algorithms/admm_optimizer.py:ADMMOptimizer._create_step1_problem,_update_x0,_get_q,_get_a0_b0"]}
{"id": "C63", "title": "The continuous program of ADMM step 2 is the augmented Lagrangian", "statement": "In every iteration the program given to the continuous optimizer has all variables with the binary ones relaxed to [0, 1], all constraints but the equalities of binary variables, and an objective that equals the augmented Lagrangian in (u, z) up to a constant; its answer is split into u and z by variable.", "quantifier": "all problems, all parameters, all iterations, all answers of the optimizers", "why_tests_cant": "Tests only look at the final answer of small problems.", "anchors": ["qiskit_optimization/algorithms/admm_optimizer.py:ADMMOptimizer._create_step2_problem,_update_x1"]}
{"id": "C64", "title": "ADMM step 3 and the multiplier update", "statement": "In the three-block variant the program for y is the augmented Lagrangian in y up to a constant and, for positive beta + rho, has the single minimum (lambda + rho (x0 - z)) / (beta + rho); in the two-block variant y stays zero; the multipliers start at zero and grow by rho (x0 - z - y) in every iteration.", "quantifier": "all problems, all parameters, all iterations, all answers of the optimizers", "why_tests_cant": "Sign or factor errors change the path of the iteration only.", "anchors": ["qiskit_optimization/algorithms/admm_optimizer.py:ADMMOptimizer._create_step3_problem,_update_y,_update_lambda_mult"]}
{"id": "C65", "title": "The compatibility check of ADMM ensures separability", "statement": "A program passes the compatibility check of ADMMOptimizer iff the program of the iterations has no product of a binary and a continuous variable in its objective.", "quantifier": "all programs", "why_tests_cant": "Needs integer variables multiplied with continuous ones, which no test has.", "anchors": ["qiskit_optimization/algorithms/admm_optimizer.py:ADMMOptimizer.get_compatibility_msg,solve"]}
{"id": "C66", "title": "Warm start with several initial solutions returns the best sample of the runs", "statement": "With one initial solution WarmStartQAOAOptimizer returns the result of the single QAOA run; with several it returns the best sample among all runs as a point of the problem, with its objective value and the right status, whenever every run succeeds.", "quantifier": "all problems, all pre-solvers, all QAOA outcomes, all numbers of initial solutions", "why_tests_cant": "Tests have one initial solution or a QUBO without constraints, for which decoding twice is harmless.", "anchors": ["qiskit_optimization/algorithms/warm_start_qaoa_optimizer.py:WarmStartQAOAOptimizer.solve", "qiskit_optimization/algorithms/optimization_algorithm.py:OptimizationAlgorithm._interpret"]}
{"id": "C67", "title": "Warm start circuits prepare the relaxed solution and keep it", "statement": "The initial circuit of WarmStartQAOAFactory gives qubit i the probability x_i of reading 1, independently of the other qubits, and for every angle beta the mixer maps this state to itself up to a global phase.", "quantifier": "all numbers of qubits, all initial values in [0, 1], all angles", "why_tests_cant": "Numerical comparison of circuits for a few angles only.", "anchors": ["qiskit_optimization/algorithms/warm_start_qaoa_optimizer.py:WarmStartQAOAFactory.create_initial_state,create_mixer"]}
{"id": "C68", "title": "Goemans-Williamson results are right for every accepted problem", "statement": "For every problem that GoemansWilliamsonOptimizer accepts, the reported value is the objective at the reported point, the status says whether the point is feasible, and a failure of the semidefinite solver yields a result with status FAILURE.", "quantifier": "all problems of binary variables, all generated cuts", "why_tests_cant": "Tests only give max-cut problems; the failure branch needs a failing solver.", "anchors": ["qiskit_optimization/algorithms/goemans_williamson_optimizer.py:GoemansWilliamsonOptimizer.solve,get_compatibility_msg"]}
{"id": "C69", "title": "Loading a docplex model keeps the variables and the feasible points", "statement": "from_docplex yields a program with the variables of the docplex model (number, order, given names, types, bounds) and exactly its feasible points.", "quantifier": "all docplex models of supported elements, all points", "why_tests_cant": "Tests load freshly created variables only; variables changed afterwards in docplex (for example fixed) do not occur.", "anchors": ["qiskit_optimization/problems/quadratic_program.py:QuadraticProgram.from_docplex"]}
{"id": "C70", "title": "GroverOptimizer leaves the caller's program unchanged and reports its values", "statement": "After GroverOptimizer.solve the program passed in is unchanged; fval and the sample values are its objective values at the reported points, and the status tells whether the reported point is feasible for it.", "quantifier": "all programs, converters, measurement outcomes, rotation draws and iteration limits", "why_tests_cant": "Tests use the default converters on a few programs; with an empty list of converters the QUBO is the caller's own object.", "anchors": ["qiskit_optimization/algorithms/grover_optimizer.py:GroverOptimizer.solve", "qiskit_optimization/algorithms/optimization_algorithm.py:OptimizationAlgorithm._convert"]}
{"id": "C71", "title": "Applications solved through the QUBO and an exact eigensolver give optimal answers", "statement": "For each application class, MinimumEigenOptimizer with an exact eigensolver applied to to_quadratic_program() succeeds, and interpret() of the reported point is an optimal solution of the combinatorial problem itself, with the reported value: a maximum cut, a largest stable set, a smallest vertex cover, a largest clique or one of the given size, a balanced partition of minimal cut, a best selection that fits (integral weights), an equal division of integers, a largest packing, a smallest exact cover, a shortest tour, routes of least weight for all vehicles - whenever the problem has a solution.", "quantifier": "all graphs, item lists and set families with at least one variable, all exact eigensolvers", "why_tests_cant": "Tests solve one small instance of each class; the claim composes loading, three converters, the penalty factor, the operator, decoding and interpretation for all instances.", "anchors": ["qiskit_optimization/applications/", "qiskit_optimization/algorithms/minimum_eigen_optimizer.py:MinimumEigenOptimizer.solve", "qiskit_optimization/converters/quadratic_program_to_qubo.py:QuadraticProgramToQubo.convert"]}
{"id": "C72", "title": "Converter and optimizer objects can be used again", "statement": "A converter object that has converted other problems before (successfully or not, with any penalties set in between) converts the next problem exactly as a new object with the penalty given last would: an automatic penalty is computed anew for every problem, a penalty that was set is used, no substitution recorded for an earlier problem is applied, interpret() refers to the last problem, and penalty returns the penalty used. Hence MinimumEigenOptimizer.solve with used converter objects gives what it gives with new ones. Before any conversion interpret() raises AttributeError.", "quantifier": "all sequences of conversions and penalty settings, all problems, all solvers, any number of converters", "why_tests_cant": "Tests use a fresh converter or repeat a single conversion; the state space of an object after arbitrarily many calls, some of which fail, is infinite.", "anchors": ["qiskit_optimization/converters/integer_to_binary.py:IntegerToBinary.convert", "qiskit_optimization/converters/linear_equality_to_penalty.py:LinearEqualityToPenalty.penalty", "qiskit_optimization/converters/quadratic_program_to_qubo.py:QuadraticProgramToQubo.convert", "qiskit_optimization/algorithms/minimum_eigen_optimizer.py:MinimumEigenOptimizer.solve"]}
{"id": "C73", "title": "An exact CPLEX makes the CPLEX optimizer return optimal points", "statement": "If CPLEX reports only optimal points of the models it is given, every result of CplexOptimizer.solve is an optimal point of the quadratic program, with its objective value (constant and sense included) and status SUCCESS; if CPLEX moreover answers for every model with an optimum, every program with an optimum is solved.", "quantifier": "all quadratic programs, all sound (and complete) solvers", "why_tests_cant": "Tests need a CPLEX licence and cover two instances; the claim relates feasible set, objective and bounds of the exported model to those of every program.", "anchors": ["qiskit_optimization/algorithms/cplex_optimizer.py:CplexOptimizer.solve", "qiskit_optimization/problems/quadratic_program.py:QuadraticProgram.to_docplex"]}
{"id": "C74", "title": "COBYLA and SLSQP optimizers with exact local solvers return optimal points", "statement": "If the numerical solver called by CobylaOptimizer (SlsqpOptimizer) returns only minima of the function it is given subject to the constraints it is given, then for every number of trials and both senses the result is an optimal point of the program with its objective value (SLSQP: and status SUCCESS; COBYLA: bounds at or beyond INFINITY count as no bounds); if the solver finds every minimum, every program over continuous variables with an optimum of finite value is solved, provided there is at least one trial and the initial guesses can be drawn.", "quantifier": "all programs over continuous variables, all numbers of trials, clip values and random draws, all sound (and complete) solvers", "why_tests_cant": "Tests solve a handful of programs; the claim needs that the constraint functions, bounds, objective and sense handed to the solver describe exactly the program, for all programs, and that the multi-start selection cannot spoil it.", "anchors": ["qiskit_optimization/algorithms/cobyla_optimizer.py:CobylaOptimizer.solve", "qiskit_optimization/algorithms/slsqp_optimizer.py:SlsqpOptimizer.solve", "qiskit_optimization/algorithms/multistart_optimizer.py:MultiStartOptimizer.multi_start_solve"]}
{"id": "C75", "title": "Grover circuits show only keys with their values and amplify those below the threshold", "statement": "In the circuit that GroverOptimizer builds for a threshold and a number r of rotations (Hadamard gates, QuadraticForm, Z on the first value qubit as oracle, Grover operator), every outcome with non-zero probability begins with a key and the two's complement of the objective at this key minus the threshold; if M of the N = 2^n keys are below the threshold, such a key is measured with probability sin^2((2r+1) arcsin sqrt(M/N)), and keys on the same side of the threshold have equal probabilities. Hence a whole run whose measurements come from these circuits returns a point at least as good as every point measured.", "quantifier": "all objectives with integral values that fit into the register, all numbers of key and value qubits, all numbers of rotations, all unitary circuits that write the value into the register", "why_tests_cant": "Tests run a few small problems on a simulator and compare the answer; the amplitudes for all objectives, register sizes and rotation counts cannot be enumerated.", "anchors": ["qiskit_optimization/algorithms/grover_optimizer.py:GroverOptimizer._get_a_operator", "qiskit_optimization/algorithms/grover_optimizer.py:GroverOptimizer._get_oracle", "qiskit_optimization/algorithms/grover_optimizer.py:GroverOptimizer.solve"]}
{"id": "C76", "title": "Drawings agree with interpretations", "statement": "Whatever the order of the nodes in the networkx graph is, the drawing of a result shows what interpret returns: the chosen nodes of a clique, vertex cover or stable set are red and the others grey, the two parts of a partition or a cut have different colours, the edges drawn for a tour form the closed tour and their weights add up to the objective, and the edges drawn for vehicle routes are those of all routes with a colour for each route.", "quantifier": "all graphs, all orders of insertion of the nodes, all results", "why_tests_cant": "Tests draw nothing or only graphs whose nodes are in the order 0, 1, 2, ...", "anchors": ["qiskit_optimization/applications/max_cut.py:Maxcut._draw_result,_node_color", "qiskit_optimization/applications/clique.py:Clique._draw_result,_node_colors", "qiskit_optimization/applications/graph_partition.py:GraphPartition._node_colors", "qiskit_optimization/applications/stable_set.py:StableSet._node_colors", "qiskit_optimization/applications/vertex_cover.py:VertexCover._node_colors", "qiskit_optimization/applications/tsp.py:Tsp._edgelist", "qiskit_optimization/applications/vehicle_routing.py:VehicleRouting._edgelist,_edge_color"]}
{"id": "C77", "title": "Random instances are complete, weighted by rounded distances, and determined by their seed", "statement": "create_random_instance of Tsp and VehicleRouting places the nodes in the given square, joins every two nodes, and gives every edge the distance rounded to an integer; hence to_quadratic_program succeeds. Calls with the same arguments including a seed give the same instance.", "quantifier": "all numbers of nodes, all ranges, all seeds, all random draws", "why_tests_cant": "Tests use one seed each; completeness depends on the radius being at least every possible distance, for all draws.", "anchors": ["qiskit_optimization/applications/tsp.py:Tsp.create_random_instance", "qiskit_optimization/applications/vehicle_routing.py:VehicleRouting.create_random_instance"]}
{"id": "C78", "title": "The name of a problem survives LP files", "statement": "read_from_lp_file gives the program the name in the last '\\Problem name:' line of the leading comment lines, without white space around it; a program written to an LP file and read again has the same name up to such white space, the same variables, objective and feasible points.", "quantifier": "all files, all names, all programs subject to the hypotheses of C41", "why_tests_cant": "Tests read a handful of files.", "anchors": ["qiskit_optimization/problems/quadratic_program.py:QuadraticProgram.read_from_lp_file,write_to_lp_file"]}
{"id": "C79", "title": "The Goemans-Williamson optimizer is a 0.878-approximation", "statement": "For a max-cut program with weights that are not negative, an exact solution of the semidefinite program and independent standard normal random numbers, the expected objective value of the returned cut is at least 0.878 times the weight of every cut, for all options; the matrix that is factorized is positive definite, so the call succeeds for all random numbers. The bound holds relative to the value of the semidefinite solution even if that solution has slightly negative eigenvalues.", "quantifier": "all graphs, all weights that are not negative, all numbers of cuts, all options, expectation over the random numbers", "why_tests_cant": "Tests compare single cuts of a graph with four nodes; an expectation over all random hyperplanes and all graphs cannot be sampled.", "anchors": ["qiskit_optimization/algorithms/goemans_williamson_optimizer.py:GoemansWilliamsonOptimizer.solve,_solve_max_cut_sdp,_generate_random_cuts,max_cut_value"]}
{"id": "C80", "title": "The recursive optimizer finds an optimum if its optimizers do", "statement": "If the two minimum eigen optimizers inside the recursive optimizer have exact eigensolvers (they return ground states, possibly spread over several optimal basis states), the recursive optimizer returns a feasible optimal point of the program with its objective value and status SUCCESS, for every minimal number of variables: no identification of two variables, equal or complementary, loses all optimal points.", "quantifier": "all programs, all exact eigensolvers (a different one in every iteration), all penalties of the inner optimizers, all minimal numbers of variables", "why_tests_cant": "Tests run a few small programs with one eigensolver; ties between optimal points and correlations that are exactly zero depend on the solver, and the coefficients where the cutoff matters do not occur.", "anchors": ["qiskit_optimization/algorithms/recursive_minimum_eigen_optimizer.py:RecursiveMinimumEigenOptimizer.solve,_find_strongest_correlation", "qiskit_optimization/algorithms/minimum_eigen_optimizer.py:MinimumEigenOptimizer.solve", "qiskit_optimization/problems/substitute_variables.py"]}
{"id": "C81", "title": "Repeated Grover measurements find an improvement", "statement": "As long as some key has a value below the threshold, a measurement of the Grover search shows such a key with a probability that is bounded below once the range of the rotations has grown to its limit (after at most ceil(2^(n/2)) - 1 measurements), whatever the number of better keys; so the probability of missing all of them falls geometrically with the number of measurements.", "quantifier": "all numbers of key and value qubits, all objectives with values that fit into the register, all numbers of better keys, all numbers of measurements", "why_tests_cant": "The number of rotations and the outcome are random; a test sees one seed, and a bound for all problem sizes cannot be sampled. A probability that is exactly zero looks like bad luck.", "anchors": ["qiskit_optimization/algorithms/grover_optimizer.py:GroverOptimizer.solve,_measure,_get_a_operator,_get_oracle"]}
{"id": "C82", "title": "The Ising operator acts as the objective; samples keep its expectation value", "statement": "As a matrix on 2^n amplitudes the operator of to_ising is diagonal with the signed objective values minus the offset; its eigenvectors to the smallest eigenvalue are the superpositions of optimal points and the eigenvalue plus the offset is the optimal value; the expectation value in any state plus the offset is the mean of the objective values, which is also the mean of the raw samples that MinimumEigenOptimizer returns; and with a normalized eigenvector to the smallest eigenvalue it returns an optimal point.", "quantifier": "all programs that to_ising accepts, all numbers of qubits, all states", "why_tests_cant": "Tests compare operators of fixed small programs term by term; a statement about all eigenvectors, states and sizes cannot be sampled.", "anchors": ["qiskit_optimization/translators/ising.py:to_ising", "qiskit_optimization/algorithms/optimization_algorithm.py:OptimizationAlgorithm._eigenvector_to_solutions", "qiskit_optimization/algorithms/minimum_eigen_optimizer.py:MinimumEigenOptimizer._solve_internal"]}
{"id": "C83", "title": "The number of qubits of a QUBO", "statement": "The QUBO of QuadraticProgramToQubo (and the operator of to_ising for it) has one variable per binary variable and, for every integer variable and every inequality, the least number of bits that can represent its range or its largest slack within the bounds of the variables; equations, and inequalities whose slack can only be zero, add none.", "quantifier": "all compatible programs, all integral bounds, all numbers of variables and constraints", "why_tests_cant": "Tests check the number of variables of a few converted programs; the exact size for all ranges and coefficients, and that it cannot be smaller, cannot be sampled.", "anchors": ["qiskit_optimization/converters/quadratic_program_to_qubo.py:QuadraticProgramToQubo.convert", "qiskit_optimization/converters/inequality_to_equality.py:InequalityToEquality._calc_linear_bounds,_add_integer_slack_var_linear_constraint", "qiskit_optimization/converters/integer_to_binary.py:IntegerToBinary._convert_var"]}
{"id": "C84", "title": "Converting a QUBO again changes nothing", "statement": "QuadraticProgramToQubo accepts every program with binary variables and no constraints and returns the same variables, sense and objective function, with interpret the identity; so converting the result of a conversion again changes nothing, whatever the penalty of either converter.", "quantifier": "all programs accepted by the converter, all penalties, all points", "why_tests_cant": "Tests convert single programs once; that the conversion is idempotent for every input and every penalty cannot be sampled.", "anchors": ["qiskit_optimization/converters/quadratic_program_to_qubo.py:QuadraticProgramToQubo.convert,interpret", "qiskit_optimization/converters/linear_equality_to_penalty.py:LinearEqualityToPenalty.convert", "qiskit_optimization/converters/integer_to_binary.py:IntegerToBinary.convert"]}
{"id": "C85", "title": "ADMM residual and constraints", "statement": "When the primal residual of the ADMM optimizer is small, the iterate nearly satisfies the constraints: each linear constraint is violated by at most the residual times the sum of the absolute coefficients of the binary variables, and residual zero means that the constraints hold.", "quantifier": "all programs, all parameters, all block solvers with feasible answers, all iterations", "why_tests_cant": "Tests run a handful of programs on which the iterations end well; the relation of residual and violation in every iteration, for all solvers, cannot be sampled.", "anchors": ["qiskit_optimization/algorithms/admm_optimizer.py:ADMMOptimizer.solve,_update_x1,_update_y,_get_solution_residuals,_create_step2_problem,_create_step3_problem"]}
{"id": "C86", "title": "The answer is as good as what was measured", "statement": "Whatever state the eigensolver returns, the answer of MinimumEigenOptimizer is at least as good as its samples: if some sample is feasible, the answer is feasible and no feasible sample is better; and the objective value of the answer is not worse than the expectation value of the operator plus the offset.", "quantifier": "all compatible programs, all penalties above the threshold, all states", "why_tests_cant": "Tests use exact eigensolvers, whose states are optimal; variational eigensolvers return superpositions of good, bad and infeasible basis states, and the choice among them must be right for all of them.", "anchors": ["qiskit_optimization/algorithms/minimum_eigen_optimizer.py:MinimumEigenOptimizer._solve_internal", "qiskit_optimization/algorithms/optimization_algorithm.py:_interpret,_interpret_samples,_eigenvector_to_solutions"]}
{"id": "C87", "title": "Programs built through the public interface are well formed", "statement": "Every program that a sequence of calls of the builder interface makes (variables, constraints, objective, removal, bounds, also with exceptions in between) has variables with lb <= ub, binary variables with bounds within 0 and 1, coefficients of existing variables only, at most one per variable or (ascending) pair of variables, and constraints with non-empty names; without exceptions its name tables agree with its lists.", "quantifier": "all sequences of builder calls, of any length", "why_tests_cant": "An invariant of all call sequences; tests run a few sequences and look at single entries.", "anchors": ["qiskit_optimization/problems/quadratic_program.py:QuadraticProgram", "qiskit_optimization/problems/variable.py:Variable", "qiskit_optimization/problems/linear_expression.py:_coeffs_to_dok_matrix", "qiskit_optimization/problems/quadratic_expression.py:_coeffs_to_dok_matrix"]}
{"id": "C88", "title": "Integer encoding survives the floating point logarithm", "statement": "With the logarithm computed in double precision (correctly rounded), the coefficients of IntegerToBinary for a variable of integral range r = ub - lb >= 1 still reach exactly the numbers 0..r, so every bit pattern decodes to a value within the bounds and every value has a bit pattern.", "quantifier": "all ranges r, all correctly rounded logarithms", "why_tests_cant": "The rounding matters only for ranges next to large powers of two.", "anchors": ["qiskit_optimization/converters/integer_to_binary.py:IntegerToBinary._convert_var"]}
{"id": "C89", "title": "Assigned coefficients are stored as given", "statement": "After expr[i] = v (and expr[i, j] = v) on a linear or quadratic expression the coefficient read back is v and no other coefficient changes, whatever the number type of the data the expression was created from; in particular step 2 of ADMM minimizes the augmented Lagrangian for objectives given as lists or matrices of integers.", "quantifier": "all expressions, all ways to give the coefficients, all keys and values", "why_tests_cant": "The tests create objectives through docplex or dictionaries, for which the matrices have floating point numbers.", "anchors": ["qiskit_optimization/problems/linear_expression.py:LinearExpression.__setitem__", "qiskit_optimization/problems/linear_expression.py:LinearExpression._coeffs_to_dok_matrix", "qiskit_optimization/problems/quadratic_expression.py:QuadraticExpression.__setitem__", "qiskit_optimization/algorithms/admm_optimizer.py:ADMMOptimizer._create_step2_problem"]}
{"id": "C90", "title": "Assignments change exactly what they name", "statement": "Assigning the name of a program, the type or a bound of a variable, the sense, right-hand side, linear or quadratic part of a constraint or the objective, its constant, or a single coefficient changes that part as stated (the value of an expression changes by (new - old) * x_i or (new - old) * x_i * x_j at every point) and nothing else; a coefficient can be assigned for every variable of the program; a bound can be assigned iff the lower bound does not exceed the upper one; a rejected assignment leaves the program unchanged.", "quantifier": "all well formed programs, all assignments", "why_tests_cant": "The tests assign a few coefficients of expressions made after all variables.", "anchors": ["qiskit_optimization/problems/constraint.py:Constraint.rhs", "qiskit_optimization/problems/constraint.py:Constraint.sense", "qiskit_optimization/problems/linear_constraint.py:LinearConstraint.linear", "qiskit_optimization/problems/quadratic_constraint.py:QuadraticConstraint.quadratic", "qiskit_optimization/problems/quadratic_objective.py:QuadraticObjective.linear", "qiskit_optimization/problems/variable.py:Variable.vartype,lowerbound,upperbound", "qiskit_optimization/problems/linear_expression.py:LinearExpression.__setitem__", "qiskit_optimization/problems/quadratic_expression.py:QuadraticExpression.__setitem__"]}
{"id": "C91", "title": "Batches of variables are returned under their names and numbered on", "statement": "binary_var_dict, integer_var_dict and continuous_var_dict return a dictionary of exactly the variables that were added, each under its own name and of the type and bounds asked for, and the corresponding *_var_list its values; if an int is given the variables are numbered from the number of variables of the program on, skipping names in use, so distinct names result; if a sequence of keys is given, with ordered bounds and a valid format, the call succeeds exactly if the formatted names are new and pairwise distinct.", "quantifier": "all programs, counts, sequences of keys, base names, formats, bounds and types", "why_tests_cant": "Tests use a few counts and two or three formats in nearly empty programs.", "anchors": ["qiskit_optimization/problems/quadratic_program.py:QuadraticProgram._add_variables", "qiskit_optimization/problems/quadratic_program.py:QuadraticProgram._var_dict", "qiskit_optimization/problems/quadratic_program.py:QuadraticProgram._var_list", "qiskit_optimization/problems/quadratic_program.py:QuadraticProgram.binary_var_dict", "qiskit_optimization/problems/quadratic_program.py:QuadraticProgram.integer_var_list"]}
{"id": "C92", "title": "A rejected docplex model does not damage the program", "statement": "If from_docplex raises, the program is as it was before the call.", "quantifier": "all programs and docplex models", "why_tests_cant": "Tests only check that unsupported models raise.", "anchors": ["qiskit_optimization/problems/quadratic_program.py:QuadraticProgram.from_docplex", "qiskit_optimization/problems/quadratic_program.py:QuadraticProgram.clear"]}
{"id": "C93", "title": "Negative indices address the coefficients they count to", "statement": "An index -k, with 1 <= k <= n, means variable n-k wherever a coefficient of a linear or quadratic expression is given, read or assigned by index: it gives the same expression, the same coefficient and the same effect as the index n-k or the name of that variable, also in mixed pairs of keys; indices outside -n..n-1 are rejected.", "quantifier": "all sizes, expressions, keys and dictionaries", "why_tests_cant": "No test uses a negative index.", "anchors": ["qiskit_optimization/problems/linear_expression.py:LinearExpression.__getitem__,__setitem__,_coeffs_to_dok_matrix", "qiskit_optimization/problems/quadratic_expression.py:QuadraticExpression.__getitem__,__setitem__,_coeffs_to_dok_matrix"]}
{"id": "C94", "title": "ADMM is exact on continuous programs", "statement": "For a program whose variables are all continuous and that has a feasible point, ADMM performs one iteration (unless its tolerance is negative) and returns an optimal point with its value and the status of success, for all parameters, provided that the continuous optimizer is exact.", "quantifier": "all continuous programs of all sizes with linear and quadratic constraints, both senses, all parameters, all exact continuous optimizers and all QUBO optimizers", "why_tests_cant": "Tests cannot quantify over programs, parameters and solvers.", "anchors": ["qiskit_optimization/algorithms/admm_optimizer.py:ADMMOptimizer.solve,_create_step2_problem,_update_x1,_get_best_merit_solution,_revert_solution_indexes,_turn_to_minimization"]}
{"id": "C95", "title": "When ADMM stops", "statement": "ADMM iterates exactly as long as the number of iterations is below maxiter, the primal residual of the iteration before (100 at the start) is above the tolerance and the time is not over; when this rules out the first iteration no result is returned but an error is raised.", "quantifier": "all programs, parameters, solvers and clocks", "why_tests_cant": "The number of iterations depends on solvers, tolerances and clocks, of which tests try a few.", "anchors": ["qiskit_optimization/algorithms/admm_optimizer.py:ADMMOptimizer.solve,_get_solution_residuals,_get_best_merit_solution"]}
{"id": "C96", "title": "Warm starts are taken from the continuous relaxation", "statement": "Warm-start QAOA (when asked to relax) and ADMM (with warm_start) hand the continuous relaxation of the program they work on to the pre-solver: same variables, bounds, constraints and objective, no integrality. Its optimum is a bound for the program, and optimal if integral. ADMM starts its first step 1 from the binary part of the answer.", "quantifier": "all programs, converters, pre-solvers and parameters", "why_tests_cant": "Tests see the final result, in which a wrong starting point is hidden by the iterations.", "anchors": ["qiskit_optimization/algorithms/warm_start_qaoa_optimizer.py:WarmStartQAOAOptimizer.solve,_relax_problem", "qiskit_optimization/algorithms/admm_optimizer.py:ADMMOptimizer._warm_start"]}
{"id": "C97", "title": "Interpretations do not depend on rounding errors of the optimizer", "statement": "A point that an optimizer returns with rounding errors, near a point of zeros and ones, gets the answer of that point in every application.", "quantifier": "all points, all sizes, all applications", "why_tests_cant": "Tests interpret exact points of zeros and ones.", "anchors": ["qiskit_optimization/applications/max_cut.py:interpret", "qiskit_optimization/applications/stable_set.py:interpret", "qiskit_optimization/applications/vertex_cover.py:interpret", "qiskit_optimization/applications/clique.py:interpret", "qiskit_optimization/applications/graph_partition.py:interpret", "qiskit_optimization/applications/knapsack.py:interpret", "qiskit_optimization/applications/set_packing.py:interpret", "qiskit_optimization/applications/exact_cover.py:interpret", "qiskit_optimization/applications/number_partition.py:interpret", "qiskit_optimization/applications/tsp.py:interpret", "qiskit_optimization/applications/vehicle_routing.py:interpret"]}
{"id": "C98", "title": "Programs with integer data are handled without rounding errors", "statement": "With integer coefficients and points of integers, the objective, the left-hand sides of constraints, the verdict of is_feasible and the operator and offset of to_ising computed in double precision are those of exact arithmetic, in whatever order numpy and scipy add, as long as the sums of absolute values stay below 2^53 (equality constraints: 10^8; to_ising: 2^51).", "quantifier": "all programs, points and sizes within the bounds, all orders of summation, all roundings to nearest", "why_tests_cant": "Tests compare with tolerances and cannot try all programs and orders of summation.", "anchors": ["qiskit_optimization/problems/linear_expression.py:LinearExpression.evaluate", "qiskit_optimization/problems/quadratic_expression.py:QuadraticExpression.evaluate", "qiskit_optimization/problems/quadratic_objective.py:QuadraticObjective.evaluate", "qiskit_optimization/problems/quadratic_program.py:QuadraticProgram.get_feasibility_info,to_ising"]}
{"id": "C99", "title": "A point that satisfies a constraint as written passes the check in floating point", "statement": "If a point satisfies a linear constraint with decimal data as it is written, the constraint is not reported as violated, although the data are rounded when stored and the left-hand side is computed with rounding.", "quantifier": "all linear constraints, points and roundings to nearest", "why_tests_cant": "Tests of feasibility use integers.", "anchors": ["qiskit_optimization/problems/quadratic_program.py:QuadraticProgram.get_feasibility_info,is_feasible"]}
{"id": "C100", "title": "Raw samples are listed best first", "statement": "The raw samples of a result of the minimum eigen optimizer and of the Grover optimizer are listed best value first with respect to the converted problem; for the minimum eigen optimizer they are the decoded samples, and the point of the result is the interpretation of the first of them.", "quantifier": "all programs, converters, solvers and measurements", "why_tests_cant": "Tests look at the raw samples of a handful of runs, and for Grover of minimizations only.", "anchors": ["qiskit_optimization/algorithms/minimum_eigen_optimizer.py:MinimumEigenOptimizer._solve_internal", "qiskit_optimization/algorithms/grover_optimizer.py:GroverOptimizer.solve"]}
{"id": "C101", "title": "ADMM finds optimal points of binary programs if its optimizers are exact", "statement": "If all variables of a program are binary and both optimizers called by ADMM return optimal points of their programs, then the point ADMM returns is optimal.", "quantifier": "all binary programs, parameters, norms, clocks and pairs of optimizers with optimal answers", "why_tests_cant": "The ADMM tests run a few hand-tuned programs with tuned parameters; they cannot show what happens for all knapsack instances or for all exact optimizers.", "anchors": ["qiskit_optimization/algorithms/admm_optimizer.py:ADMMOptimizer.solve", "qiskit_optimization/algorithms/admm_optimizer.py:ADMMOptimizer._create_step1_problem", "qiskit_optimization/algorithms/admm_optimizer.py:ADMMParameters.__init__"]}
{"id": "C102", "title": "The QUBO and the Ising Hamiltonian of programs with integer data have no rounding errors", "statement": "If all coefficients of a binary program with equality constraints are integers and the size |constant| + sum|linear| + sum|quadratic| + penalty * sum (|rhs| + sum|row|)^2 is below 2^49, then the penalty conversion and the Ising Hamiltonian computed in double precision equal the exact ones, so bit strings of least energy are optimal points of the program. The same holds of the whole QUBO conversion of programs with integer variables and inequalities (slack bounds, number of bits, encodings, substitution) and of the interpretation of its bit strings, as long as the intermediate programs keep to the size bounds.", "quantifier": "all programs with integer data below the size bound, all penalties, every correct rounding function and every correctly rounded logarithm", "why_tests_cant": "Tests compare a few Hamiltonians with tolerances; they cannot show that no coefficient in any program of bounded size is rounded.", "anchors": ["qiskit_optimization/converters/linear_equality_to_penalty.py:LinearEqualityToPenalty.convert", "qiskit_optimization/converters/linear_equality_to_penalty.py:LinearEqualityToPenalty._auto_define_penalty", "qiskit_optimization/problems/quadratic_program.py:QuadraticProgram.to_ising", "qiskit_optimization/converters/quadratic_program_to_qubo.py:QuadraticProgramToQubo.convert", "qiskit_optimization/converters/quadratic_program_to_qubo.py:QuadraticProgramToQubo.interpret", "qiskit_optimization/converters/integer_to_binary.py:IntegerToBinary.convert", "qiskit_optimization/converters/inequality_to_equality.py:InequalityToEquality.convert"]}
{"id": "C103", "title": "Rounding errors of values and feasibility checks are bounded for all data", "statement": "For all programs, when the numbers of the program and of the point are rounded to doubles and every operation rounds, the computed objective value differs from the exact one by at most N * 2^-52 times the sum of the absolute values of the terms (N = number of coefficients + number of variables + 6, up to 2^52). So a point reported as not worse than another is worse by at most the two error bounds; every point that satisfies the bounds, and the constraints with a margin above the error bounds, is reported as feasible; and every point reported as feasible satisfies bounds and constraints up to the error bounds (equalities: and the tolerance of math.isclose).", "quantifier": "all programs, points and sizes, all orders of summation, all roundings to nearest (no overflow or underflow)", "why_tests_cant": "Tests evaluate a few programs with benign numbers; a bound on the error for all data and all orders of summation that numpy or scipy may choose needs a proof.", "anchors": ["qiskit_optimization/problems/linear_expression.py:LinearExpression.evaluate", "qiskit_optimization/problems/quadratic_expression.py:QuadraticExpression.evaluate", "qiskit_optimization/problems/quadratic_objective.py:QuadraticObjective.evaluate", "qiskit_optimization/problems/quadratic_program.py:QuadraticProgram.get_feasibility_info"]}
{"id": "C104", "title": "Substitution in steps and at once agree, and a reported infeasibility is kept", "statement": "Replacing variables in two calls of substitute_variables gives the same variables, objective, feasible points and status as replacing them in one call (a multiple of a variable that is itself replaced in the second call becomes the product); in particular a program for which a substitution has reported INFEASIBLE keeps that status and is not solved as if it were feasible.", "quantifier": "all programs, all pairs of accepted substitutions by constants and by multiples of variables, all points, all later calls", "why_tests_cant": "Tests substitute once in small programs; that all splits of a substitution into steps agree needs a proof for all programs and points.", "anchors": ["qiskit_optimization/problems/quadratic_program.py:SubstituteVariables.substitute_variables", "qiskit_optimization/problems/quadratic_program.py:QuadraticProgram.status", "qiskit_optimization/algorithms/minimum_eigen_optimizer.py:MinimumEigenOptimizer.solve"]}
{"id": "C105", "title": "Enough iterations make the Grover search reliable", "statement": "If num_iterations is chosen large enough for the number of variables, GroverOptimizer.solve measures an optimal key with a probability close to one, whatever the number of variables is; the default value finds it with a probability that does not vanish as programs grow.", "quantifier": "all objectives with integer values that fit into the value register, all numbers of variables, all choices of num_iterations, all runs of the random process (draws of rotation counts and measured keys)", "why_tests_cant": "Tests run programs with two or three variables and a fixed seed; the probability of success over all draws and all sizes cannot be sampled.", "anchors": ["qiskit_optimization/algorithms/grover_optimizer.py:GroverOptimizer.__init__", "qiskit_optimization/algorithms/grover_optimizer.py:GroverOptimizer.solve"]}
{"id": "C106", "title": "More trials of the multi-start optimizers do not make the result worse", "statement": "With more trials the result of multi_start_solve is at least as good: a feasible answer of some trial is never replaced by an infeasible one, the value does not get worse, and if a random start leads to the optimum with probability q, the optimum is returned with probability at least 1-(1-q)^(trials-1).", "quantifier": "all programs with continuous variables, all local optimizers, all distributions of the draws, all numbers of trials, both senses", "why_tests_cant": "Tests use one trial or convex programs where every trial gives the same point; the claim is about all local optimizers, distributions and numbers of trials.", "anchors": ["qiskit_optimization/algorithms/multistart_optimizer.py:MultiStartOptimizer.multi_start_solve", "qiskit_optimization/algorithms/slsqp_optimizer.py:SlsqpOptimizer.solve", "qiskit_optimization/algorithms/cobyla_optimizer.py:CobylaOptimizer.solve"]}
{"id": "C107", "title": "Optimizers with exact solvers agree on the optimal value", "statement": "For every feasible program that CplexOptimizer, MinimumEigenOptimizer and RecursiveMinimumEigenOptimizer all accept, the three return the same fval with status SUCCESS when CPLEX and the eigensolvers are exact.", "quantifier": "all programs with binary and bounded integer variables, all exact solvers", "why_tests_cant": "Tests compare optimizers on a few small programs; agreement on all programs needs the exactness of every conversion in between.", "anchors": ["qiskit_optimization/algorithms/cplex_optimizer.py:CplexOptimizer.solve", "qiskit_optimization/algorithms/minimum_eigen_optimizer.py:MinimumEigenOptimizer.solve", "qiskit_optimization/algorithms/recursive_minimum_eigen_optimizer.py:RecursiveMinimumEigenOptimizer.solve"]}
{"id": "C108", "title": "Solving the opposite problem changes nothing but signs", "statement": "Exchanging minimize and maximize and negating the objective leaves the conversion to a QUBO (up to the same change), the penalty, the interpretation and the Ising operator the same; and solve() of MinimumEigenOptimizer, RecursiveMinimumEigenOptimizer, ADMMOptimizer, GroverOptimizer, CobylaOptimizer and SlsqpOptimizer returns the same point, status and samples in the same order, with all objective values negated.", "quantifier": "all programs, penalties, solvers and measurement outcomes", "why_tests_cant": "Tests solve a few minimization or maximization problems; no pair of runs is compared, and both signs of the sense enter in a dozen places.", "anchors": ["qiskit_optimization/converters/quadratic_program_to_qubo.py:QuadraticProgramToQubo.convert", "qiskit_optimization/problems/quadratic_program.py:QuadraticProgram.to_ising", "qiskit_optimization/algorithms/minimum_eigen_optimizer.py:MinimumEigenOptimizer.solve", "qiskit_optimization/algorithms/admm_optimizer.py:ADMMOptimizer._turn_to_minimization", "qiskit_optimization/algorithms/grover_optimizer.py:GroverOptimizer.solve", "qiskit_optimization/algorithms/multistart_optimizer.py:MultiStartOptimizer.multi_start_solve"]}
{"id": "C109", "title": "A constant added to the objective is added to all values and changes nothing else", "statement": "Adding a constant to the objective leaves the conversion to a QUBO (up to the same constant), the penalty, the interpretation and the Ising operator the same and adds the signed constant to the offset; and solve() of MinimumEigenOptimizer, RecursiveMinimumEigenOptimizer, ADMMOptimizer, GroverOptimizer, CobylaOptimizer and SlsqpOptimizer returns the same point, status and samples in the same order, with the constant added to all objective values.", "quantifier": "all programs, constants, penalties, solvers and measurement outcomes", "why_tests_cant": "Tests use objectives without constant or with one constant; no pair of runs is compared, and the constant enters in the converters, in the order of samples, in the thresholds of Grover and in the bounds of the multi-start loop.", "anchors": ["qiskit_optimization/converters/quadratic_program_to_qubo.py:QuadraticProgramToQubo.convert", "qiskit_optimization/problems/quadratic_program.py:QuadraticProgram.to_ising", "qiskit_optimization/algorithms/minimum_eigen_optimizer.py:MinimumEigenOptimizer.solve", "qiskit_optimization/algorithms/recursive_minimum_eigen_optimizer.py:RecursiveMinimumEigenOptimizer.solve", "qiskit_optimization/algorithms/admm_optimizer.py:ADMMOptimizer.solve", "qiskit_optimization/algorithms/grover_optimizer.py:GroverOptimizer.solve", "qiskit_optimization/algorithms/multistart_optimizer.py:MultiStartOptimizer.multi_start_solve"]}
{"id": "C110", "title": "Related applications agree with each other", "statement": "Applications that encode the same mathematical problem differently agree: Clique on a graph and StableSet on its complement have the same feasible points and values; VehicleRouting with one vehicle, for any depot, and Tsp have the same values at corresponding tours and the same optimal value; GraphPartition and Maxcut have the same value at every 0/1 point; and the feasible points of ExactCover are those of SetPacking that contain every element.", "quantifier": "all graphs, depots, families of sets and points", "why_tests_cant": "Each application is tested alone on a few fixed instances; the agreement of two encodings (n*n position variables against n*(n-1) edge variables with exponentially many subtour constraints) on every instance is never checked.", "anchors": ["qiskit_optimization/applications/clique.py:Clique.to_quadratic_program", "qiskit_optimization/applications/stable_set.py:StableSet.to_quadratic_program", "qiskit_optimization/applications/tsp.py:Tsp.to_quadratic_program", "qiskit_optimization/applications/vehicle_routing.py:VehicleRouting.to_quadratic_program", "qiskit_optimization/applications/graph_partition.py:GraphPartition.to_quadratic_program", "qiskit_optimization/applications/max_cut.py:Maxcut.to_quadratic_program", "qiskit_optimization/applications/exact_cover.py:ExactCover.to_quadratic_program", "qiskit_optimization/applications/set_packing.py:SetPacking.to_quadratic_program"]}
{"id": "C111", "title": "Substituting variables and adding the equations as constraints agree", "statement": "Replacing variables by constants or multiples of other variables with substitute_variables, and adding the same equations with linear_constraint, give programs with the same feasible points (up to the replaced coordinates), the same optimal points and the same optimal value; if the substitution reports INFEASIBLE, nothing is feasible with the constraints.", "quantifier": "all programs, all accepted substitutions, all points", "why_tests_cant": "Tests check the coefficients after a few substitutions; the two ways of fixing a variable are never compared, let alone for all programs and points.", "anchors": ["qiskit_optimization/problems/quadratic_program.py:SubstituteVariables.substitute_variables", "qiskit_optimization/problems/quadratic_program.py:QuadraticProgram.linear_constraint"]}
{"id": "C112", "title": "Multiplying the objective by a positive number multiplies all values and changes nothing else", "statement": "Multiplying all coefficients of the objective by a positive number multiplies the QUBO, the penalty, the Ising operator and the offset by it and leaves the interpretation the same; and solve() of MinimumEigenOptimizer, RecursiveMinimumEigenOptimizer, CobylaOptimizer and SlsqpOptimizer, with solvers that do not look at positive factors, returns the same point, status and samples in the same order, with all objective values multiplied.", "quantifier": "all programs, positive factors, given penalties, scale-free solvers, numbers of trials", "why_tests_cant": "Tests use objectives with coefficients of moderate size; no pair of runs is compared, and absolute tolerances and penalties show only for other scales.", "anchors": ["qiskit_optimization/converters/quadratic_program_to_qubo.py:QuadraticProgramToQubo.convert", "qiskit_optimization/converters/linear_equality_to_penalty.py:LinearEqualityToPenalty._auto_define_penalty", "qiskit_optimization/problems/quadratic_program.py:QuadraticProgram.to_ising", "qiskit_optimization/algorithms/minimum_eigen_optimizer.py:MinimumEigenOptimizer.solve", "qiskit_optimization/algorithms/recursive_minimum_eigen_optimizer.py:RecursiveMinimumEigenOptimizer.solve", "qiskit_optimization/algorithms/multistart_optimizer.py:MultiStartOptimizer.multi_start_solve"]}
{"id": "C113", "title": "The continuous variables that ADMM returns are optimal for its binary values", "statement": "If the optimizers of the blocks are exact, then in every iteration of ADMM the continuous variables are feasible and optimal for the binary values of the same block, and the continuous variables of the returned point are feasible and optimal for the binary values of the returned point.", "quantifier": "all programs, exact block optimizers, parameters, norms, numbers of iterations", "why_tests_cant": "Tests compare the answer with a known optimum up to several decimals, so that small violations of the constraints pass; no test solves the program again for the returned binary values.", "anchors": ["qiskit_optimization/algorithms/admm_optimizer.py:ADMMOptimizer._update_x1", "qiskit_optimization/algorithms/admm_optimizer.py:ADMMOptimizer._create_step2_problem", "qiskit_optimization/algorithms/admm_optimizer.py:ADMMOptimizer._get_best_merit_solution", "qiskit_optimization/algorithms/admm_optimizer.py:ADMMOptimizer.solve"]}
{"id": "C114", "title": "Names do not influence results", "statement": "Giving the variables and constraints of a program other (distinct) names changes nothing but names: the same points are feasible, the converters build the same programs or raise the same error and interpret points in the same way, and the optimizers return the same points, values and samples.", "quantifier": "all programs, renamings, penalties, slack modes, eigensolvers, measurement outcomes, numerical solvers, numbers of trials", "why_tests_cant": "Tests use one set of short names per program; a dependence on names shows only when a name meets one that a converter makes.", "anchors": ["qiskit_optimization/converters/integer_to_binary.py:IntegerToBinary.convert", "qiskit_optimization/converters/inequality_to_equality.py:InequalityToEquality.convert", "qiskit_optimization/converters/quadratic_program_to_qubo.py:QuadraticProgramToQubo.convert", "qiskit_optimization/algorithms/minimum_eigen_optimizer.py:MinimumEigenOptimizer.solve", "qiskit_optimization/algorithms/grover_optimizer.py:GroverOptimizer.solve", "qiskit_optimization/problems/quadratic_program.py:QuadraticProgram.get_feasibility_info", "qiskit_optimization/algorithms/recursive_minimum_eigen_optimizer.py:RecursiveMinimumEigenOptimizer.solve", "qiskit_optimization/problems/quadratic_program.py:QuadraticProgram.substitute_variables", "qiskit_optimization/algorithms/admm_optimizer.py:ADMMOptimizer.solve"]}
{"id": "C115", "title": "The order of the constraints does not matter", "statement": "Adding the constraints of a program in another order changes nothing but orders: the same points are feasible with the same violated constraints; LinearEqualityToPenalty chooses the same penalty and makes the same objective, or raises the same error; InequalityToEquality makes the same variables and constraints up to their order, or raises the same error; QuadraticProgramToQubo chooses the same penalty and makes the same variables up to their order, with the same objective value and interpretation at corresponding points, or raises the same error.", "quantifier": "all programs whose constraints have non-empty names, all orders of their linear and of their quadratic constraints, all penalties, slack modes and points", "why_tests_cant": "The number of orders is factorial, tests use one; conflicts between automatic slack names, or state carried from one constraint to the next, show up for some orders only.", "anchors": ["qiskit_optimization/converters/inequality_to_equality.py:InequalityToEquality.convert", "qiskit_optimization/converters/linear_equality_to_penalty.py:LinearEqualityToPenalty.convert", "qiskit_optimization/problems/quadratic_program.py:QuadraticProgram.get_feasibility_info", "qiskit_optimization/converters/quadratic_program_to_qubo.py:QuadraticProgramToQubo.convert,interpret"]}
{"id": "C116", "title": "The order of the variables does not matter", "statement": "Declaring the variables of a program in another order changes nothing but orders: at points with the same values of the variables the same verdict, the same violated variables and constraints and the same objective value; InequalityToEquality, IntegerToBinary and LinearEqualityToPenalty make of the two programs again the same program with its variables in another order (same slack bounds, same penalty) and interpret corresponding points as corresponding points; QuadraticProgramToQubo likewise; each converter succeeds for both programs or for none.", "quantifier": "all programs whose constraints have non-empty names, all orders of their variables, all penalties, slack modes and points", "why_tests_cant": "The number of orders is factorial, tests use one. Indices of variables, and which of (i, j) and (j, i) holds the coefficient of a product, change with the order; an index used with the wrong program goes unnoticed as long as the tests declare their variables in the favourable order.", "anchors": ["qiskit_optimization/problems/quadratic_program.py:QuadraticProgram.get_feasibility_info", "qiskit_optimization/converters/inequality_to_equality.py:InequalityToEquality.convert,interpret", "qiskit_optimization/converters/integer_to_binary.py:IntegerToBinary.convert,interpret", "qiskit_optimization/converters/linear_equality_to_penalty.py:LinearEqualityToPenalty.convert", "qiskit_optimization/converters/quadratic_program_to_qubo.py:QuadraticProgramToQubo.convert,interpret"]}
{"id": "C117", "title": "Constraints may be written either way", "statement": "Multiplying constraints by -1 (f(x) <= b as -f(x) >= -b, an equality with all signs changed) changes nothing that matters: the same points are feasible with the same violated variables and the corresponding violated constraints; InequalityToEquality makes the same slack variables with the same bounds, IntegerToBinary the same bits, with equations that differ by the sign; LinearEqualityToPenalty and QuadraticProgramToQubo make exactly the same QUBO with the same penalty and interpretation; all of them raise the same errors. The minimum eigen optimizer and the Grover optimizer return identical results. COBYLA and SLSQP are given the same functions, up to the sign and order of the functions of equalities.", "quantifier": "all programs, all sets of constraints that are multiplied by -1, all penalties, slack modes and points, all eigensolvers and all outcomes of measurements", "why_tests_cant": "The branches for <= and >= are separate pieces of code with separate signs, roundings and bounds; tests check each on a few numbers. A wrong sign or a wrong rounding in one branch shows up only for coefficients and bounds of particular signs and for fractional right-hand sides.", "anchors": ["qiskit_optimization/problems/quadratic_program.py:QuadraticProgram.get_feasibility_info,linear_constraint,quadratic_constraint", "qiskit_optimization/converters/inequality_to_equality.py:InequalityToEquality.convert", "qiskit_optimization/converters/integer_to_binary.py:IntegerToBinary.convert", "qiskit_optimization/converters/linear_equality_to_penalty.py:LinearEqualityToPenalty.convert", "qiskit_optimization/converters/quadratic_program_to_qubo.py:QuadraticProgramToQubo.convert,interpret", "qiskit_optimization/algorithms/cobyla_optimizer.py:CobylaOptimizer.solve", "qiskit_optimization/algorithms/slsqp_optimizer.py:SlsqpOptimizer.solve"]}
{"id": "C118", "title": "Incompatible programs are refused", "statement": "MinimumEigenOptimizer, WarmStartQAOAOptimizer, RecursiveMinimumEigenOptimizer and GroverOptimizer raise QiskitOptimizationError for every program with a continuous variable, a quadratic constraint or a fractional coefficient of a linear constraint, whatever converters and solvers they were given; CobylaOptimizer and SlsqpOptimizer for every program with a variable that is not continuous; GoemansWilliamsonOptimizer for every program with a variable that is not binary; ADMMOptimizer for every program whose objective has a product of a binary and a continuous variable.", "quantifier": "all programs, all converters, solvers, measurements and parameters", "why_tests_cant": "Tests can only try particular incompatible programs and converters. The standard converter makes the same check again, so that with it a missing check of an optimizer is not noticed.", "anchors": ["qiskit_optimization/algorithms/optimization_algorithm.py:OptimizationAlgorithm._verify_compatibility", "qiskit_optimization/algorithms/minimum_eigen_optimizer.py:MinimumEigenOptimizer.solve", "qiskit_optimization/algorithms/warm_start_qaoa_optimizer.py:WarmStartQAOAOptimizer.solve", "qiskit_optimization/algorithms/recursive_minimum_eigen_optimizer.py:RecursiveMinimumEigenOptimizer.solve", "qiskit_optimization/algorithms/grover_optimizer.py:GroverOptimizer.solve", "qiskit_optimization/algorithms/cobyla_optimizer.py:CobylaOptimizer.solve", "qiskit_optimization/algorithms/slsqp_optimizer.py:SlsqpOptimizer.solve", "qiskit_optimization/algorithms/goemans_williamson_optimizer.py:GoemansWilliamsonOptimizer.solve", "qiskit_optimization/algorithms/admm_optimizer.py:ADMMOptimizer.solve"]}
