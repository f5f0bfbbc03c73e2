# Verification of qiskit-optimization: design

Source: `/repo` (Qiskit/qiskit-optimization, Python). The code is read as text and modelled by hand in
Lean 4; nothing is extracted or run. Properties are in `properties.jsonl` (C01, C02, ...), the status of
each one in `MANIFEST.json`, the seeded-bug experiments in `seeded/LOG.jsonl`.

## 1. Trusted base

* Lean 4.33.0's kernel and its standard logical axioms `propext`, `Classical.choice`, `Quot.sound`
  (inherited from Mathlib's ordered-field and list/finset library). No own axioms, no `sorry`,
  no `native_decide`/`bv_decide`. `decide +kernel` is only used for concrete examples and witnesses and
  is checked by the kernel. Every theorem listed in the manifest depends on at most these three axioms.
* The hand translation Python -> Lean. Each model definition cites the file and lines it mirrors and
  follows the branch structure of the Python function; deviations are stated in its comment.
* The statements: each property is stated with a small specification that does not use the helper
  functions of the model (sums over entries, membership, `∀`/`∃` over points).

## 2. Modelling conventions

* **Numbers.** Coefficients, bounds, values are exact rationals `ℚ` (Python: ints / IEEE doubles; the conversion of
  assigned values to the type of an integer matrix is modelled for C89 only).
  Overflow, NaN and `inf` are *not* modelled; rounding is modelled in C88, C89, C98, C99, C102 and C103 only; C98 and C102 prove
  that there is none in evaluations, conversions and `to_ising` for integer data. `INFINITY = 1e20` is the rational 10^20, as in
  `infinity.py`. `isinstance(v, float) and not v.is_integer()` is modelled by "not an integer".
  `math.isclose(a, b)` keeps its relative tolerance 1e-9 exactly.
* **Dictionaries and dok matrices** are association lists with Python's update rules (`Verif/Dict.lean`):
  assignment overwrites the first entry with that key or appends, `d[k] = d.get(k, 0) + v` likewise;
  assigning zero to a dok entry deletes it. The iteration order of scipy's csr->dok conversion is
  not modelled (order of a sum).
* **Points** are lists of rationals (`x[i]`), evaluation reads `x.getD i 0`; API level functions check
  lengths as the code does.
* **Exceptions** are values: `Except Err α`. Builder methods that mutate a program return the program in
  both cases (`QP × Except Err α`) so that the state after an exception is visible. When two keys of one entry are both invalid the kind of error (KeyError or IndexError) may differ from Python's, which looks up both names first.
* **Copies.** `copy.deepcopy` is the identity (values are immutable in the model); consequently
  aliasing between a converter's `_src`/`_dst` and the user's objects is not modelled. `Verif/Reuse.lean` models
  converter objects that are used several times, with dictionaries keyed by objects.
* **External code** (docplex, networkx, scipy, numpy solvers, qiskit circuits, eigensolvers, random
  numbers, time, files, logging) is not modelled; where a property depends on it, it appears as a
  universally quantified input (any list of measurement outcomes, any answers of a local solver, any
  docplex model given by its variables/objective/constraints, any graph given by its edge list).
  Docplex expressions are assumed to be sums of terms with one coefficient per variable and per pair of variables,
  and docplex to keep names and bounds as given (it caps bounds at 1e20).

## 3. What is modelled

`problems/` (variable, constraint, linear/quadratic expression, objective, constraints,
QuadraticProgram builders, feasibility, Ising maps, docplex maps, substitution); `converters/` (all four);
`algorithms/` (result objects, sample decoding/merging, MinimumEigen, Recursive, Grover search loop,
multi-start, COBYLA/SLSQP constraint encoding, ADMM bookkeeping, warm-start aggregation,
Goemans-Williamson cut handling, CPLEX result handling); `applications/` (all model builders and `interpret` functions, the
file parsers' line logic).

Also modelled, with the external library as an argument: colours and positions of drawings (C76), random instances as
functions of the seeded generator (C77), the circuits of warm start QAOA and of Grover search as matrices (C67, C75), the
hyperplane rounding of Goemans-Williamson (C79), the name line of LP files (C78).

Not modelled: the semidefinite solver called by Goemans-Williamson, the text of `export_as_lp_string` apart from its first
lines, LP file reading by CPLEX, logging and deprecation shims.

## 4. Properties: model and proof plan

| id | model / plan |
|----|--------------|
| C01 | `QuadExpr` construction (dict assignment, triangle folding, symmetric form); proof: evaluation is a sum over entries, invariant under folding. |
| C02 | gradients as lists; second-order expansion by algebra on entry sums. |
| C03 | builder calls as a datatype of operations, invariant (index = positions, names distinct) by induction over call sequences. |
| C04 | **expected to fail**: `_variables_index[name]` is set before `Variable(...)` may raise (quadratic_program.py:227-228), same for constraints (649-652, 742-749). Negation with a witness; partial: failing calls rejected before that point leave the program unchanged. |
| C05 | naming loops modelled with fuel = number of names + 1, shown sufficient by pigeonhole. |
| C06 | list removal + rebuilt index; feasibility as conjunction. |
| C07 | `get_feasibility_info` branch by branch; equivalence with a declarative specification. |
| C08 | **fails**: integrality is not checked. Negation; partial on integral points. |
| C09 | `to_ising` loops producing Pauli Z-strings; energy of a bitstring is the sum of coefficient times product of ±1. **Fails** for objectives without linear/quadratic terms: the operator returned is the identity with coefficient one (line 1330). Negation; partial with at least one term. |
| C10 | `from_ising`; **fails** when a Pauli term occurs twice (matrix assignment overwrites, 1392-1394). Negation; partial for distinct terms. |
| C11 | composition; the operator returned by `reduce()` has distinct terms; **fails** for constant objectives (identity is rejected). |
| C12 | substitution of expressions over name dictionaries; evaluation at the extended point. |
| C13 | bounds, linear and quadratic constraints; needs the guard that bounds are finite or the coefficient is ±1 where `INFINITY` is kept unscaled (1659-1666). `C13_variables` says which variables remain, `C13_feasible_partial` that feasible points stay feasible. |
| C14 | **fails** (order-dependent chain check gives KeyError; crossing bounds raise in the setter instead of status INFEASIBLE). Negations; partial statements. |
| C15 | `_convert_var` coefficients `1,2,..,2^(p-1), r-(2^p-1)`; proof by induction on p. The rounding of `np.log2` is not modelled here; see C88. |
| C16 | dictionary conversions; **fails** for products of two integer variables with non-zero lower bound (154-157). Negation; partial when, for each product of integer variables, the other factor takes at most three values or the lower bound is zero; the exact error at every point for all programs (`C16_error`). |
| C17 | slack construction; **fails** when continuous variables occur in an inequality with integer coefficients. Negation; partial for integer/binary variables. `C17_form` (`Verif/PropsSlackShape.lean`) adds, for all programs and modes, what every single constraint and variable of the result is; `C17_exact` gives the exact list of variables (with the bounds of every slack variable, computed in `Verif/SlackSpec.lean` independently of the model) and the exact right-hand and left-hand side of every constraint. |
| C18 | same with continuous slacks, all points; **fails** for tightened binary bounds. Negation; partial for bounds [0, 1]. |
| C19 | penalty expansion as entry sums. |
| C20 | **fails** for general integer variables and for the fixed 1e5; partial: binary variables, integer constraint data. |
| C21 | **fails** for quadratic constraints and tightened binary bounds. |
| C22 | composition of C16, C17, C20 along the pipeline; `C22_value` gives the objective of the QUBO at every point, including what products of integer variables miss. |
| C23 | shape of pipeline results. |
| C24 | **fails**: e.g. an integer variable with lb = ub raises OverflowError; '@' name clashes. Partial under explicit conditions. |
| C25 | **fails** (binary variables are re-created with bounds [0,1]). |
| C26 | list merge + stable sort by key. |
| C27 | bit decoding for counts and vectors. **Fails** for dictionaries keyed in Qiskit order (not reversed, unlike `sample_most_likely`) and for complex amplitudes of a DictStateFn. Proved for vectors and for keys read left to right. |
| C28 | composition with C09, C22, C26, C27. **Fails** where the QUBO is not exact (C22) and where no basis state reaches the threshold 1e-6. |
| C29 | `_interpret`, result object. |
| C30 | loop with fuel, chains of replacements; the step facts (names, objective, bounds) are proved once and carried along the chain. **Fails** for coefficients of size at most 1e-10, which are dropped. Proved exactly for coefficients that are multiples of some g > 2e-10, with error bound otherwise. |
| C59 | **fails** for eliminations x_i = 1 - x_j. Partial for identifications. |
| C60 | **fails** without converters. Partial for non-empty lists of converters. |
| C61 | dictionary loop with last-value semantics; list input. |
| C31 | **fails** for maximization with more than one trial (fval_sol keeps the unsigned value, 92-94). Partial for minimization; for maximization, what is returned instead (`C31_maximize_partial`, `C31_maximize_last`, `C31_maximize_first`). |
| C32 | lists of functions as closures over expressions; feasibility iff all returned functions are non-negative (zero for equalities); gradient. |
| C33, C58 | search loop with fuel over an arbitrary outcome function; invariant and termination measure. `C58_not_early` says, for all runs that end, which of the three limits was reached. The value register is a two's complement register; C58 **fails** when values do not fit into it (section 5). |
| C70 | the caller's program is part of the result; **fails** for `converters=[]`. Partial for non-empty lists of converters. |
| C71 | composition of the application models (C42-C50), `from_docplex_mp`, `QuadraticProgramToQubo`, `to_ising`, decoding and `interpret` for any solver that meets a contract on diagonal operators; `exhaustive` is such a solver. |
| C72 | converter objects with their attributes (`_src`, `_dst`, `_conv` keyed by variable objects, `_penalty`, `_should_define_penalty`) in `Verif/Reuse.lean`; the reachable states are inductive predicates; every call on a reachable state agrees with the call on a new object. What an exception leaves in `_dst` is arbitrary. |
| C73 | `cplexSolve` over `toDocplex`; CPLEX is a function from docplex models to outcomes with a contract (`CplexSound`, `CplexComplete`; `idealCplex` meets both). Partial: binary variables with bounds other than 0 and 1 lose them on export (`C73_violated`: a program with an optimum for which every sound solver yields status INFEASIBLE). |
| C74 | `cobylaSolve`, `slsqpSolve` with solvers that meet a contract (`idealCobyla`, `idealSlsqp` do); all answers of an exact solver have the same value, so the comparison error of C31 does no harm. |
| C75 | circuits as matrices over basis states `Fin q → Bool`: Hadamard gates, the library class `QuadraticForm` as an argument with a contract (unitary; writes the two's complement of the value into an empty register; `writeForm` is an instance), Z gate, reflection about zero. The state stays a superposition of the basis states that show a key with its value; the two amplitudes turn by the angle 2 arcsin √(M/N). `C75_best` replaces the assumption of C33 on measurements by "the outcome has non-zero amplitude". |
| C76 | **fails** for max-cut. `Draw.lean`: colour lists and edge lists; networkx pairs the colours with the nodes in the order of insertion, which is an argument. Proved for clique, cover, stable set, partition, tours and routes; for max-cut if the nodes are in ascending order. |
| C77 | **fails** for the seed 0 of `Tsp`. `Geometry.lean`: `hypot` and `rint` as functions on the reals, `random_geometric_graph` as "joined iff the distance is at most the radius"; the generators are an argument with the contract that draws lie in the range. |
| C78 | `LpFile.lean`: the loop over the lines; docplex's reader is an argument, with the hypothesis that it reads back the model that was written under the name given. |
| C79 | `GoemansRounding.lean`: the semidefinite program, the shift of the diagonal, the factorization and the signs, over the reals. `eigh`, `cholesky` and the solver are arguments with contracts (least eigenvalue; a factor of every positive definite matrix; an optimum); all three are shown to exist. The random numbers are the product measure of standard normal distributions (Mathlib); the probability that a hyperplane separates two vectors is computed in polar coordinates. Floating point and the pseudo-random generator are not modelled. |
| C80 | The runs of C30 with the optimizers of C28 inside and the eigensolver contract of C71 (a different solver in every iteration). If all samples are optimal, the pair that is chosen has the chosen relation in at least one of them, also for correlation zero, so every elimination keeps an optimal point. **Fails** for coefficients below the cutoff of 1e-10; partial: exact if the coefficients of the QUBO are multiples of some g > 2e-10, and within 2 n² 1e-10 of the optimal value of the QUBO for all coefficients (`C80_near`). |
| C81 | The draw of the number of rotations as a function of a uniform real number, the growth of its range, and the circuit of C75; probabilities are integrals over the draw of sums of squared amplitudes. The average of sin² over 1, ..., K rotations is computed in closed form. **Fails** for three better keys out of four; partial: at least 1/8 in all other cases and 1/4 if at most half of the keys are better, hence (7/8)^l and (3/4)^l for l further measurements. Not considered: the stop after `iterations` measurements or 79 rotations (that part of the loop is in C33). |
| C82 | Pauli strings as complex matrices (entries given by the action on basis states), the operator as their sum; eigenvectors, expectation values and probabilities in the usual sense of linear algebra, connected with the models of C09, C25 and C28. **Fails** for constant objectives (C09) and for samples with probability below 1e-6; partial: the matrix, the smallest eigenvalue and expectation values for non-constant objectives, the ground states for all, the mean of the samples up to 1e-6 times the sum of the absolute objective values, and an optimal point up to 19 qubits in the cases of C28. |
| C83 | The models of C12, C15 and C23. The size is a sum over variables and constraints; `bitsFor` is characterized by `C83_least`, the largest slack as a rounded right-hand side minus the least (or greatest) left-hand side over all points within the bounds. For integral bounds. A constraint that always holds still gets a slack variable: `a + b <= 10` with binary `a`, `b` adds four qubits (example). |
| C84 | The model of C23. `C84_qubo` is about any program with binary variables and no constraints, `C84_twice` about the result of a conversion; both for any penalty, also an automatic one. |
| C85 | The models of C35 and C62 to C64. The solver of step 2 must return points that satisfy the program it gets; the norm must not be below the absolute value of an entry (true of the Euclidean norm). The bound has the term `abs y`, which is zero with two blocks. With three blocks, the default, the claim fails: see section 5. |
| C86 | The models of C22, C27, C28 and C82; the state is any state, not a ground state. For equality constraints the claim is proved for all basis states of probability 1e-6 or more. With inequalities it fails (section 5); what remains true is that the answer is not worse than the QUBO value of any measured basis state, and feasible as soon as that value reaches a feasible one. |
| C87 | The builder calls of C03 (`Call`), now with rejected calls in between, as inductively defined sets of reachable programs. `C87_wellformed_partial` gives `QP.WF`, the assumption of most other properties, for every program built without exceptions from inputs that are not too wide. False for too wide lists and matrices and for the setters of the bounds and the type of variables (section 5). |
| C88 | `_convert_var` with the floating point logarithm (`Verif/FloatLog.lean`): `NearestDouble x y` says that `y` is the number with 53 digits nearest to `x`; that `np.log2` is correctly rounded is the hypothesis. Bounds on `Real.log 2` from Mathlib give where rounding can change the integer part. `C88_exact`: below 2^48 the coefficients are those of the exact model of C15. False for the range 2^50 - 2 (section 5). |
| C89 | The number type of the stored matrices (`Verif/Dtype.lean`): `dok_matrix(shape)` has floating point numbers, `dok_matrix(list)` takes the type of the list, and assigning an entry converts the value to this type (for integers: towards zero). This is scipy's behaviour and part of the trusted base. Reading back is proved for floating point matrices and for integral values; the loop of step 2 of ADMM is repeated with types and agrees with the model of C63 if the types are floating point. False for integer matrices (section 5). |
| C90 | All setters of the public interface (`Edit` in `Verif/Program.lean`), which are also calls in C03, C04, C54 and C87. `C90_edit` compares the program before and after by values of expressions at points; `linear = ...` is compared with what `minimize` stores. Assignments through objects that were removed from the program are not modelled. Coefficients of variables created after the expression are rejected (section 5). |
| C91 | `Verif/VarDict.lean` on top of `addVariables` of C02. Python's `str.format` is reduced to formats with at most one hole, as in C02. |
| C92 | `QP.loadDocplex` is `from_docplex` called on an arbitrary program. The property is false (section 5); `C92_load_partial` shows that what is left is a program as ordinary calls make it. |
| C93 | `Verif/NegIndex.lean`: keys that are names or integers, the comparison `j < i` of raw indices, and scipy's count from the end after it. False for pairs of one negative and one nonnegative index in `quadratic[i, j]` (section 5). |
| C94 | On the model of ADMM of C35 and C63. The continuous optimizer is an argument with the contract that its answer is optimal whenever the program it is given has a feasible point; the QUBO optimizer is arbitrary. |
| C95 | On the same model. The clock is an argument, a function of the number of iterations; `residualBefore` is the specification of the residual that is compared with the tolerance. |
| C96 | On the models of C66 and C35. `Relaxes` says what a relaxation is, in terms of feasible points and values; the pre-solver is an argument. |
| C97 | On the models of `interpret` of C42 to C50; the points are arbitrary rationals. False for errors at the zeros (section 5). |
| C98 | `Verif/FloatEval.lean` repeats the evaluations, the check of feasibility and `to_ising` with a rounding after every operation. The rounding is an argument, any function to the nearest number with 53 digits (`IsRounding`; one is shown to exist; ties arbitrary, no overflow and no subnormal numbers). Sums may be taken in any order and bracketing (`FlSum`). This justifies the rational numbers of the rest of the model for integer data. |
| C99 | On the same model. Proved for equalities with nonnegative data and up to a million terms (the accumulated relative error is below the 1e-9 of `isclose`), and for inequalities with a relative slack of 1e-9. False in general (section 5). |
| C100 | On the models of C26 and of the Grover optimizer (`Verif/Grover.lean`); for Grover by induction over the loop. False for Grover on maximizations (section 5). |
| C101 | On the ADMM model of C33 and C95 (`Verif/Admm.lean`): the program solved in step 1 of the first iteration is computed (`Verif/AdmmBinary.lean`) and compared with the objective; both optimizers are arbitrary functions whose answers are optimal. Proved: a bound without constraints. Optimality is false (section 5). |
| C102 | The penalty conversion with an arbitrary correct rounding applied after every floating point operation (`Verif/FloatPenalty.lean`, in the style of C98) is proved equal to the exact one for integer data of bounded size, and composed with the rounded `to_ising` of C98 and the exactness theorems of the penalty and the Hamiltonian. The other two stages of the QUBO conversion (slack bounds, `np.log2`, encodings, substitution) and the decoding are rounded in the same way in `Verif/FloatQubo.lean`; there the size bounds (`FitsDouble`) are put on the exact intermediate programs, because bounds on the source alone would be far too crude. |
| C103 | The rounded evaluation of `Verif/FloatEval.lean` with data that are rounded as well; forward error analysis (`Verif/FloatErrorLemmas.lean`: an error relation closed under rounding, sums in any order and products), and that rounding keeps the order of bounds. |
| C104 | Two calls of `QP.substitute` against one with the combined replacements (`Combined`, a relation on lists of names); extensions of points are composed (`chainFacts`). **Fails** for the status: a second call computes it anew after the violated constraint was dropped; converters and optimizers ignore it. Negations; partial statement for points. |
| C105 | The two nested loops as a random process (`hitProb`): uniform draws of rotation counts, keys measured with the probabilities of the circuit state, thresholds and ranges as in the code. **Fails**: the limit of 79 rotations does not grow with the number of variables, so the probability is at most `s (v + 62419) / 2^n` for `s` optimal keys and `v` values, and `27 s v / 2^n` with the default. Partial: `1 - (v - 1) (7/8)^l` while the rotations last. Upper bounds use `\|sin (k x)\| ≤ k \|sin x\|` and a potential over the remaining rotations. |
| C106 | `multiStartSolve` for two numbers of trials; draws of the trials with the product measure, one factor per trial. **Fails** for maximization (the stored value has the wrong sign, see C31) and for feasible answers (only values are compared). Partial for minimization: values, status, probability of the optimum. |
| C107 | `cplexSolve`, `minEigenSolve` and `recursiveWith` side by side with exact solvers as arguments. Partial: one value for all three whenever the QUBO is exact (C28, C73 and C80 combined; a feasible program has no violated constraint without terms). **Fails** for products of integer variables with lower bounds other than zero (cause: C16). |
| C108 | `QP.opposite` negates all stored coefficients of the objective and flips the sense; every model function is run on both programs. Proved for building, `toQubo`, `toIsing`, `minEigenSolve` and `recursiveSolve` (any eigensolvers) and `admmSolve` (objective without stored zeros, as the setters build it). Partial for Grover (all but the raw samples) and COBYLA/SLSQP (one trial). **Fails** for raw samples of Grover (cause: C100) and several trials (cause: C31). |
| C109 | `QP.raise w` adds `w` to the constant of the objective; every model function is run on both programs. Proved for building, `toQubo`, `toIsing`, `minEigenSolve` (any eigensolver), `recursiveSolve` and `admmSolve` (continuous optimizer whose answers do not depend on the constant). Partial for Grover (faithful measurements, constants of the QUBO not zero) and multi-start (minimization, values below `1e20`). **Fails** for Grover when a constant is zero, for COBYLA/SLSQP with maximization or values of `1e20`. |
| C110 | The programs of `Apps.lean` and `Tours.lean`, compared pairwise. The complement of a graph is specified by its adjacency, not computed. For one vehicle the tours are rotated to start at the depot, and the length is shown to be invariant under rotation. Proved. |
| C111 | `QP.addEquations` calls `linear_constraint(…, "==", …)` for each equation; its feasible points are compared with those of `QP.substitute`. Feasible points proved for all substitutions in which replaced integer variables get integral values (and within the package's infinity), optimal points and values for constants. **Fails** for an integer variable fixed at a fraction. |
| C112 | `QP.scale w` multiplies the objective; every function on the way to the result is applied to a program and to the scaled one (`Scale.lean`). Proved for given penalties (multiplied too), the Ising operator, `MinimumEigenOptimizer` with scale-free eigensolvers, and the multi-start loop below `1e20`; the automatic penalty is described exactly. **Fails** for the automatic penalty, for values of `1e20`, and for the recursive optimizer (absolute cutoff `1e-10`). The cutoff `1e-8` of Terra's `reduce` is not modelled (`reduceTerms`). |
| C113 | `QP.SatRest` and `QP.SameBinary` say which constraints the second block keeps and that two points have the same binary values. Proved for `(z, u)` in every iterate, for any programs (products of binary variables included), and for the returned point without the third block if its residual is zero. **Fails** for the returned point with the default parameters: `u` belongs to `z`, but is returned with `x0`. |
| C114 | `QP.rename ρ σ` renames variables with `ρ` and constraints with `σ`; `SameUpToNames` compares all that is not a name. Feasibility, operator, COBYLA and SLSQP: for all names. Both converters, the QUBO, `MinimumEigenOptimizer` and `GroverOptimizer`: for names without `@`, variables and constraints renamed independently (they may share names). Substitution and `RecursiveMinimumEigenOptimizer` (with inner optimizers that do not depend on names, `NameBlind`, as `C114_name_blind` shows of `MinimumEigenOptimizer`): for names without `@`, `__CONSTANT__` not being renamed. **Fails** for names with `@` and for the name `__CONSTANT__`. `ADMMOptimizer`: all iterates are the same for names without `@`, with inner optimizers that do not depend on names (`C114_admm_solvers` shows this of `MinimumEigenOptimizer`, COBYLA and SLSQP). |
| C115 | `Reordered p p'`: the same program with the lists of linear and quadratic constraints permuted. Slack variables are compared by name and bounds, constraints by name, sense, right-hand side and the value of the left-hand side at points that give the same values to the same variables (`SamePoint`). `C115_qubo` needs no bounds: also the automatic penalty is the same, since the coefficients of a polynomial are determined by its values (`Verif/OrderQubo.lean`). Constraints with empty names are excluded: `QuadraticProgram` replaces an empty name by an automatic one, so they cannot be made with its methods. |
| C116 | `Renumbered p p'`: the variables are a permutation; objective and constraints (in the same order) have the same values at points that give the same values to the same variables (`SamePoint`). This does not mention indices or coefficients, so it says independently of the representation that the programs are the same. `C116_slack`, `C116_bits` and `C116_penalty` each take renumbered programs to renumbered programs and `C116_qubo` composes them. Coefficients of a polynomial are determined by its values, and a sum over the stored pairs (i, j), i ≤ j, is half of a symmetric sum over pairs of variables (`Verif/Renumber.lean`). Errors: slack and penalty stage raise the same error; for the bits only success is compared, because with two defects (a fixed integer variable, a clash of names) the order decides which is found first. Constraints with empty names are excluded, as in C115. |
| C117 | `Mirrored p p'`: the same program, but any of the constraints may be multiplied by -1 (`LinCst.mirror`, `QuadCst.mirror`); `C117_build` shows that the builder makes such programs from negated inputs of every form, `C117_meaning` that a mirrored constraint holds at the same points. `C117_slack` and `C117_bits` take mirrored programs to mirrored programs, `C117_penalty` and `C117_qubo` show equality of the results, `C117_min_eigen`, `C117_grover` and `C117_solver_input` compare the optimizers. No hypothesis on the programs. Proved by following each step of the model with a flag that says whether the current constraint is turned (`Verif/Mirror.lean`). The `callers` field of the Grover result is the caller's own program and is left out of the comparison. |
| C118 | The checks at the beginning of the `solve` methods, for arbitrary converters and solvers. The condition for QUBO optimizers is spelled out in `NotQuboLike`, independently of the text of the message. `C118_admm` needs a well formed program whose objective is as wide as the program; products of an integer and a continuous variable are not refused (C65). The exceptions are compared by their class, not by their text. |
| C34 | negation of the coefficients, two's complement decoding, key to point. |
| C56 | **fails** for a one-sided bound beyond the clip value (negative scale of the uniform distribution), and in the first trial for bounds that exclude zero; exactly when a guess exists is `C56_exists_iff`. |
| C57 | **fails** for shot based backends (amplitudes used as counts, last value of a key wins); what the samples carry instead is `C57_counts`. Partial for statevectors. |
| C35 | the whole `solve` of ADMM with the two optimizers, norm and clock as arguments; the loop is related to a list of iterates (`Trace`, `Ran`), minimum merit by a fold. |
| C36 | positions and ranks of the variables of one type. **Fails** for step 1 (row-only test of an upper triangular matrix, `> 0` test). |
| C37 | exact trace of the residuals; **fails** (`z_saved` also receives y, rho is multiplied by tau_decr). |
| C62-C64 | value of the step programs as `Finset` sums, compared with the augmented Lagrangian; C63 **fails** for products of binary variables. |
| C65 | **fails** for integer times continuous variables. |
| C38, C66 | clamping; aggregation keyed by concatenated digits; the whole `solve` with pre-solver and QAOA as arguments. **Fails**: keys clash for values above 9, the chosen sample is decoded twice. Partial for single digit points and for runs whose QUBO has the variables of the problem. |
| C67 | states as functions from bit lists to ℂ, gates by their matrices (Real.cos, Real.sin, Complex.exp). |
| C39, C68 | the generated cuts are an argument; value as a sum over pairs, sort, complement and removal of duplicates. C39 needs `sort_cuts` (**fails** without); C68 **fails** for problems other than max-cut and for the failure branch. |
| C40, C41, C69 | docplex models as data: variables, expressions (with sums and products), constraints of all kinds; `from_docplex` and `to_docplex` line by line. What docplex does with a constraint that is a Python boolean is an argument. C41 and C69 **fail** for binary variables with changed bounds; C41 also for a linear constraint with the name of a quadratic constraint without quadratic terms. |
| C42-C50 | application models built through the docplex layer (C40); exactness against graph, set, tour and route specifications. networkx graphs are a number of nodes and a list of edges. C50: the greedy extraction of routes, with the argument that leftover edges would form a forbidden sub-route; feasibility in both directions. |
| C51 | **fails** (`w[s,t] = t`; `typ.strip()` result discarded; `EOF` read as coordinates). Partial: exactly which Gset files are right; TSPLIB files without the offending lines. Python's `int`/`float` and the rounded distance are arguments. `C51_radius`: the radius passed to networkx exceeds all distances; `C51_program`: what is read has a program. Assumption: networkx reads `pos=coord`, an array, by rows; the sources of networkx are not available here, and versions that accept only dictionaries would reject every file. |
| C52 | digit strings as lists, amplitudes as pairs of rationals; sort and argmax modelled. |
| C53 | direct. |
| C55 | **fails** when a linear and a quadratic inequality share a name (slack names collide). Negation; success proved otherwise. |
| C54 | **fails** (an expression's matrix has the number of variables at the time of its creation). Negation; partial for programs whose expressions are created after all variables (`QP.ShapeOK`). |

## 5. Findings: where the code does not have the property

Every item has a theorem `Cxx_violated` with a concrete witness evaluated by the kernel; the part that
does hold is proved separately (`_partial`).

* **C04** A rejected variable or constraint leaves its name in the index (`_variables_index[name]` is set at
  quadratic_program.py:227 before `Variable(...)` raises; 649-652 and 742-749 for constraints); a batch of
  variables that fails half way keeps the first half.
* **C08** `is_feasible` accepts fractional values of integer and binary variables (1452-1507).
* **C09, C11** `to_ising` of an objective without linear and quadratic part returns the identity with
  coefficient one instead of zero (1330); `from_ising` then rejects that operator. The tolerance `1e-8` with which
  Terra's `SparsePauliOp.simplify` drops small terms is external code and not modelled.
* **C10** `from_ising` overwrites the coefficient when a Pauli string occurs twice (1392-1394, 1407-1411).
* **C12** a variable named `__CONSTANT__` is treated as the constant one (1512, 1560-1610).
* **C13** substituting fractional constants for integer variables gives a program marked VALID with points
  that do not extend to feasible points.
* **C14** a chain `x -> y`, `y -> z` given in this order raises KeyError, in the other order
  QiskitOptimizationError; bounds that cross while being tightened raise in the setter instead of
  setting the status INFEASIBLE.
* **C16** `lb_y * x + lb_x * y` is added without the coefficients of the bits when both factors of a product are
  integer variables (integer_to_binary.py:154-157): `x * y` on `[1,4]^2` has value 14 instead of 16 at (4,4).
* **C17** an inequality with integer coefficients on a continuous variable gets an integer slack in the modes
  `integer` and `auto` (inequality_to_equality.py:82-116): feasible fractional points have no extension.
* **C18** binary variables are re-created with the bounds [0, 1], so bounds tightened by the user are lost (also C25).
  The objective of the result is created before the slacks, so it has fewer columns than variables (see C54).
* **C19, C21** quadratic constraints are ignored by `LinearEqualityToPenalty` (only `linear_constraints` are looped over),
  neither penalised nor rejected; binary variables get the bounds [0, 1] back.
* **C20** the constant penalty 1e5 used when a coefficient is fractional is too small for `x/2 = 1/2`, objective `30000 x`;
  the sum of absolute coefficients used otherwise ignores the range of integer variables.
* **C22** inherits C16: for `maximize 5xy - 19x` on `[1,4]^2` the optimal point of the QUBO decodes to (2,4), not (4,4).
* **C24** the compatibility check accepts an integer variable with lb = ub, for which the encoding raises OverflowError, and
  names containing `@` that clash with generated names.
* **C25** all three converters re-create binary variables with the bounds [0, 1].
* **C55** a linear and a quadratic inequality with the same name make the conversion raise: both slacks get the same
  name.
* **C54** expressions created before a variable was added cannot be evaluated at points of the program's
  own dimension.
* **C27** `_eigenvector_to_solutions` reads the keys of a counts dictionary and of a DictStateFn from left to right as
  x_0, x_1, ... (optimization_algorithm.py:456-466), whereas statevectors and `sample_most_likely` take the last character as
  x_0: keys in Qiskit order are decoded with the qubits reversed. `val**2` is used for amplitudes, a complex number
  for complex amplitudes, so the comparison with the threshold raises TypeError.
* **C28** inherits C22. In addition `raw_samples[0]` raises IndexError when every basis state of the ground state has probability
  below 1e-6 (uniform superposition of twenty qubits), and a program without variables has no operator with zero qubits
  (`I ^ 0` is the number one), so `operator.num_qubits` raises AttributeError.
* **C31** `fval_sol` is compared with `sense * value` but stores the unsigned value (multistart_optimizer.py:92-94): for a
  maximization with positive values every later trial replaces the earlier ones.
* **C56** with a lower bound above the clip value and no upper bound (or conversely) the scale of `uniform.rvs` is negative, which raises
  ValueError for every trial but the first.
* **C57** for counts `_measure` returns square roots of frequencies; they are divided by their sum instead of squared
  (grover_optimizer.py:264-270, 350), so frequencies 9/25 and 16/25 are reported as 3/7 and 4/7. If one key occurs with two
  values only the last one is kept. The raw samples are sorted as for a minimization whatever the sense.
* **C30** after the shift x_i -> 1 + x_i every linear coefficient of size at most 1e-10 is set to zero, also those of other
  variables (recursive_minimum_eigen_optimizer.py:271-275).
* **C58** `GroverOptimizer.solve` resets the count of iterations without improvement after every improvement, and nothing else stops it while improvements go on. The circuit computes modulo 2^n for n value qubits, where n is chosen by the user. For `minimize 2x` and two value qubits the difference 2 between the two keys reads as -2 in both directions: if the keys are measured in turn, every measurement lowers the threshold by two and the search never ends (`C58_violated`, `grover_optimizer.py:250-257, 277-291`). No check compares the range of the objective with the register.
* **C59** the elimination x_i = 1 - x_j is done as x_i = -x_j after the shift of the objective, without shifting the bounds of x_i:
  `substitute_variables` intersects [0, 1] with [-1, 0] and x_j gets the bounds [0, 0]. With a final optimizer that respects bounds,
  `maximize x0 - x1` is answered with (0, 1), value -1.
* **C60** with `converters=[]` the loop works on the caller's object; the shift of the objective (261-275) modifies it, and the
  reported value is computed from the modified objective.
* **C36** `_get_step1_indices` looks at row i of the upper triangular matrix only (admm_optimizer.py:547) and at positive coefficients
  of equalities only (562): for `maximize a * b` the variable b is not in the QUBO and stays zero, so value 0 is returned for all
  answers of the solvers; for `-x = -1` the QUBO is empty.
* **C37** `z_saved` gets z and y (386-387) but is indexed by the iteration (882): from iteration 2 on the dual residual compares z
  with an older z or with y. `_update_rho` multiplies by `tau_decr` (825), whose default is 2, when the dual residual dominates; the cited
  rule divides.
* **C63** `_create_step2_problem` overwrites the linear and the diagonal quadratic coefficients of binary variables (701-704) but
  keeps products of different binary variables.
* **C65** the compatibility check is done before the integer variables are converted (295, 305).
* **C38** `MeanAggregator` uses the concatenated decimal digits of a point as key (warm_start_qaoa_optimizer.py): the points (1, 12)
  and (11, 2) are merged and read back as (1, 1, 2), a point with three coordinates.
* **C66** with several initial solutions the samples of the runs are already points of the problem, but the best one is passed to
  `_interpret` with the converters again. If the conversion adds variables this always raises; otherwise the point is decoded twice:
  minimizing a in [1, 2] returns 2. Infeasible samples are chosen by value alone and reported with status SUCCESS in the samples.
* **C39** without `sort_cuts` the first generated cut is returned.
* **C68** every program of binary variables is accepted, but the value is that of the quadratic part with the sign of a max-cut
  problem: linear part, constant, sense and constraints are ignored, and `unique_cuts` replaces points by their complements. When
  the solver raises an error, the result object is built with `x=[]`, which raises QiskitOptimizationError because the number of
  variables differs (goemans_williamson_optimizer.py:158-164).
* **C73** inherits the lost bounds of C41: `CplexOptimizer` reports INFEASIBLE for a program with a binary variable
  fixed to 1 that has an optimum, whatever (exact) CPLEX answers.
* **C69, C41** `from_docplex` creates binary variables without looking at their bounds (quadratic_program.py:899), and `to_docplex` does
  the same (1046): a binary variable fixed in one of the two models is free in the other. In C41 a quadratic constraint without quadratic terms becomes a
  linear constraint of docplex (1105-1109); if a linear constraint has the same name, which is allowed, loading raises an error.
* **C70** with `converters=[]` `GroverOptimizer` works on the caller's own object (optimization_algorithm.py:413-421): it negates the objective of a
  maximization and subtracts the threshold from the constant in every round (grover_optimizer.py:179-186, 220). After the call the
  program is a different one, and `fval` is its value: 0 instead of 2 in the witness.
* **C76** `Maxcut._node_color` lists the colours in the order of the variables (max_cut.py:94), the other applications in the order of
  `graph.nodes`: for a graph built from the edges (2, 0), (0, 1) the drawing shows another cut than `interpret` returns. (Its comment
  also says red for 1, the code takes red for 0.)
* **C77** `if seed:` (tsp.py:133) ignores the seed 0: such instances depend on the state left by earlier calls.
* **C80** with exact eigensolvers everywhere, `minimize -b0 / 10^11` with two binary variables is answered by (0, 1): the first elimination is right,
  but the shift of the objective drops the coefficient (see C30).
* **C81** `int(np.ceil(uniform(0, m - 1)))` is 0 with probability 0 as soon as m is 2 or more, so the search never measures without rotations again. With
  two binary variables the range is at most 2, every later circuit has exactly one rotation, and if three of the four keys are better, that
  rotation moves all amplitude away from them. For `minimize x y`, if (1,1) is measured first and once more, it is returned with value 1,
  whatever the number of iterations (probability 1/16).
* **C82** Basis states with a probability below 1e-6 are dropped without renormalizing, so the mean of `raw_samples` is not the expectation value
  of the operator: for `minimize b0` and a state with probability 2.5e-7 for `b0 = 1` the mean is 0.
* **C85** (the third block hides the violation). For `minimize b` subject to `b >= 1`, with default parameters and any exact solvers of the blocks, every iterate has `x0 = 0`, `z = 1`, and `y` tends to `-1`: the residual `x0 - z - y` falls below the tolerance within four iterations, and the answer is the infeasible `b = 0` (`C85_violated`). With `three_block=False` the optimizer finds `b = 1` on the same program.
* **C86** `_solve_internal` takes `x = raw_samples[0].x`, the sample with the best QUBO value, and not the best of the interpreted samples. For `b0 + b1 + b2 >= 1` and a measurement that finds (1,1,1) and (0,0,0), each with slack bits 0, the answer is the infeasible (0,0,0) with status INFEASIBLE, although `result.samples[0]` is the feasible (1,1,1) with status SUCCESS (`C86_violated`): the penalty of (1,1,1) with wrong slack bits is 4, that of (0,0,0) is 1.
* **C87** A list, array or sparse matrix of coefficients is stored as it is, whatever its width: `linear_constraint([1, 2, 3], '<=', 4)` is accepted by a program with two variables (`C87_width_violated`); the error appears only when the constraint is evaluated, converted or exported. The setters `Variable.lowerbound` and `upperbound` do not look at the type: `x.upperbound = 2` is accepted for a binary variable, and `x.vartype = VarType.BINARY` for an integer variable between -3 and 5 (`C87_binary_violated`).
* **C88** For an integer variable with `ub - lb = 2**50 - 2` the value `np.log2(var_range)` is rounded up to 50, the last coefficient is `-1`, and the bit pattern with only the last bit set is decoded to `lb - 1`, below the lower bound (`C88_violated`). All smaller ranges are encoded exactly (`C88_encoding_partial`).
* **C89** In an expression created from a list or matrix of integers, `expr[0] = 0.5` stores 0, since scipy converts to `int64` (`C89_violated`). The ADMM optimizer assigns coefficients in step 2: with `minimize(linear=[-1, 1])` and `rho_initial=0.5` the coefficient -1/2 becomes 0 and the program solved is not the augmented Lagrangian (`C89_admm_violated`). With dictionaries, as in the tests, the matrices have floating point numbers (`C89_types`, `C89_admm_partial`).
* **C90** A constraint or objective made before the variable `y` can not be given a coefficient of `y`: `constraint.linear["y"] = 1` raises `IndexError` (`C90_violated`), as the matrix keeps the width it was created with (compare C54).
* **C92** `from_docplex` clears the program before it looks at the model and never restores it. After a rejected model (unknown variable type, `!=` constraint, unknown names) the old program is gone and the part of the model that was read before the error stays (`C92_violated`).
* **C93** `QuadraticExpression.__getitem__` and `__setitem__` order the two indices before scipy counts negative ones from the end. `expr[0, -1]` therefore addresses the entry `(n-1, 0)` below the diagonal, which the upper triangular storage leaves empty: it reads 0, and an assignment adds a second term for the same pair instead of replacing the coefficient (`C93_violated`).
* **C95** With `maxiter = 0`, or a tolerance of 100 or more, ADMM does no iteration and fails with the ValueError of `min([])` (`C95_none`), not with an error that names the parameter.
* **C97** The `interpret` methods test `if value`, not whether a value is nearer to 1 than to 0. A solver that works with an integrality tolerance, such as CPLEX, can return 1e-7 for a binary variable that is 0: the item counts as selected, and e.g. a stable set is reported that contains both ends of an edge, although the point passes `is_feasible` (`C97_violated`).
* **C99** Inequalities are compared without tolerance: `0.1 x <= 0.7` is reported as violated at `x = 7`, since the rounded product is the next number after the rounded 0.7 (`C99_violated`); results with such points get the status INFEASIBLE. Equalities are compared with a relative tolerance, which is none for the right-hand side 0: `0.1 x - 0.7 y = 0` is reported as violated at `(7, 1)` (`C99_violated_zero`).
* **C100** The Grover optimizer sorts the raw samples with the sense of the problem it has just turned into a minimization, but with the values of the problem before that (`grover_optimizer.py:180-188, 271`): for maximizations the raw samples are listed worst first (`C100_violated`; `C100_grover` proves that they always ascend).
* **C101** ADMM starts from zeros and the first program of step 1 minimizes the objective plus `rho_initial / 2` for every one in the point (`admm_optimizer.py:_create_step1_problem`). The default `rho_initial` is 10000. So for a binary program that zero satisfies and whose coefficients stay below 5000, exact optimizers give zero in all three steps, the residual is zero, and ADMM stops after one iteration with the zero point (`C101_stuck`). Every knapsack with values below 5000 comes back empty (`C101_knapsack`, `C101_violated`).
* **C104** `substitute_variables` drops constraints without variables and reports a violated one only through the status INFEASIBLE, which nothing but the recursive optimizer looks at. A second substitution returns a VALID program with feasible points (`C104_violated`); `is_feasible` accepts points, the QUBO of the program is VALID, and `MinimumEigenOptimizer` answers with SUCCESS (`C104_solved_violated`).
* **C105** `max_rotations = int(np.ceil(100 * np.pi / 4))` is 79 for every number of variables, although Grover search needs about `2^(n/2)` rotations. Raising `num_iterations` does not help: the maximum of a sum of 40 binary variables is measured with a probability below 1e-7 for every value of it (`C105_violated`), and SUCCESS is reported all the same. With the default of three iterations 20 variables already give less than 1/1000 (`C105_default`).
* **C106** `multi_start_solve` compares objective values only, so an infeasible answer replaces a feasible one: `min x, x² >= 1, 0 <= x <= 2` is reported INFEASIBLE when the trial from zero gets stuck there, although the second trial ends at the optimum (`C106_feasible_violated`). For maximization one trial may give the optimum while every larger number of trials does not (`C106_trials_violated`).
* **C107** For `max 5 x y - 19 x` on `[1, 4]²` every exact CPLEX gives 4 and an exact eigensolver 2, both with status SUCCESS (`C107_violated`, a consequence of C16).
* **C108** COBYLA and SLSQP with two trials report the maximum of `x` at 3 but the minimum of `-x` at 5, for the same answers of the numerical solver (`C108_violated`, a consequence of C31). The raw samples of Grover are listed worst first for a maximization and best first for the equivalent minimization (`C108_grover_violated`, cf. C100).
* **C109** With the same measured keys the Grover optimizer reports the minimum of `x` at 0 and the minimum of `x + 1` at 1, since the zero point is substituted only if the constant of the QUBO is 0 (`C109_grover_violated`). COBYLA and SLSQP report, for the same answers 5 and 3 of the numerical solver, the maximum of `x` at 3 and the maximum of `x - 10` at 5 (`C109_violated`, a consequence of C31), and raise TypeError for an objective with constant `1e20` (`C109_violated_large`).
* **C111** `minimize x` with integer `x` fixed at `1/2`: the substitution gives a VALID program with optimal value `1/2`, the constraint `x == 1/2` an infeasible one (`C111_violated`, a consequence of C13).
* **C112** The automatic penalty `1 + Σ|c|` is not multiplied with the objective (`C112_violated`). `RecursiveMinimumEigenOptimizer` drops linear coefficients below `1e-10`: with exact solvers `max x + 2y - 4xy` is solved at (0, 1), the same objective times `1e-11` at (1, 0), half the optimum (`C112_recursive_violated`). With values of `1e20` COBYLA and SLSQP accept no trial and raise a TypeError (`C112_violated_large`).
* **C113** ADMM returns the binary variables of the first block with the continuous variables of the second. For `min 100b + c`, `b + c >= 1`, `c` in [0, 10], with the default parameters, exact block optimizers, any norm and any number of iterations, the answer has `b = 0` and `c < 1`: it violates the constraint and has the status INFEASIBLE, although `c = 1` is optimal for `b = 0` (`C113_violated`). Solving once more for `c` with `b` fixed would repair it.
* **C114** A program with an integer variable `x` in [0, 1] and a binary variable `y` is converted to a QUBO; the same program with `x@0` instead of `y` is rejected, because this is the name the converter makes for the bit of `x` (`C114_violated`). The names with `@` are not reserved by `QuadraticProgram`. Minimising `-2 x - y`, the recursive optimizer with an exact eigensolver returns `(1, 1)`; with `__CONSTANT__` instead of `x` it returns `(0, 0)` as a success (`C114_recursive_violated`).
* **C51** `parse_gset_format` stores `t__`, the second node, instead of the weight (max_cut.py:122): the matrix is right only if every
  weight is the second node less one, and edges that end at node 1 vanish. `parse_tsplib_format` discards the result of `strip`
  (tsp.py:167, 177), so that every `TYPE` and `EDGE_WEIGHT_TYPE` line with a line end raises QiskitOptimizationError; the closing
  line `EOF` is read as coordinates and raises ValueError.

## 6. The mutation log

`seeded/LOG.jsonl` has one line per edit of the model. `theorems_failed` lists the declarations for which Lean reported an error.
A failing module stops the build of the modules that import it, so this list alone says little about the theorems of a claim.
`property_theorems_depending_on_failed` therefore lists the theorems of the claim whose proofs use one of the failed declarations,
computed from the constants occurring in the proof terms. (A previous version of the log had a field
`property_theorems_no_longer_checking` that listed all theorems of the claim whenever the build failed; this overstated 42 of the
first 46 lines and was replaced.) Where the list was empty although the build failed, the edit was run again with the failed
helper lemmas replaced by `sorry` in the scratch copy, so that the theorems downstream were checked themselves; these lines have
`"helpers_stubbed": true`. This uncovered that `QP.Sat` and C07 were stated with the model's own list of constraints, that C14 said
nothing about the status, and that no property covered linear expressions (now C61). A proof that breaks shows that the proof
depends on the edited behaviour; it is not by itself a proof that the statement has become false.

Statements that use a helper of the model do not notice errors of this helper. The edit "weights are looked up for one direction of an
edge only" left C49 standing, because its hypothesis was stated with the lookup function itself. C49, C50 and C71 now speak of the
edges of the graph (`Graph.Weighs`).
