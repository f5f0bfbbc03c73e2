import Verif.Result
import Verif.Substitute

/-!
# The recursive minimum eigen optimizer

Models `algorithms/recursive_minimum_eigen_optimizer.py`.  The two optimizers it calls are arguments.
-/

namespace Verif

/-- The matrix of `get_correlations` (`optimization_algorithm.py:188-209`): its size is the length of the first
sample; without samples `states[0]` is an IndexError.  Simplification: samples of different lengths (IndexError) are
not modelled, missing coordinates count as zero. -/
def correlationSize : List Sample → Except Err Nat
  | [] => .error .indexError
  | s :: _ => .ok s.x.length

/-- The matrix `abs_correlations` (`recursive_minimum_eigen_optimizer.py:336-338`). -/
def absCorrelation (samples : List Sample) (i j : Nat) : ℚ := if i = j then -1 else |correlation samples i j|

/-- `np.argmax` of the values `f 0, …, f (m - 1)`: the first position of the maximum; `best` is the best position
before `m'`. -/
def argmaxFrom (f : Nat → ℚ) (m : Nat) : Nat → Nat → Nat
  | 0, best => best
  | k + 1, best => argmaxFrom f m k (if f (m - (k + 1)) > f best then m - (k + 1) else best)

/-- `_find_strongest_correlation` (`recursive_minimum_eigen_optimizer.py:333-346`) for a matrix of size `n`; an empty
matrix is a ValueError of `np.argmax`. -/
def strongest (samples : List Sample) (n : Nat) : Except Err (Nat × Nat) :=
  if n = 0 then .error .valueError
  else
    let m := argmaxFrom (fun q => absCorrelation samples (q / n) (q % n)) (n * n) (n * n) 0
    .ok (m / n, m - m / n * n)

/-- The loop over the linear coefficients (`recursive_minimum_eigen_optimizer.py:264-275`), from `k` on, with `m`
coefficients left. -/
def shiftLinear (q : QuadExpr) (vi : Assoc String Nat) (i : Nat) : Nat → Nat → LinExpr → Except Err LinExpr
  | 0, _, l => .ok l
  | m + 1, k, l =>
    match l.getItem vi (.idx k) with
    | .error e => .error e
    | .ok c =>
      match q.getItem vi (.idx i) (.idx k) with
      | .error e => .error e
      | .ok d =>
        let coeff := if k = i then c + 2 * d else c + d
        match l.setItem vi (.idx k) (if |coeff| > 1 / 10 ^ 10 then coeff else 0) with
        | .error e => .error e
        | .ok l => shiftLinear q vi i m (k + 1) l

/-- The step `x_i = 1 + x_i` (`recursive_minimum_eigen_optimizer.py:257-275`): the program is modified in place. -/
def shiftProgram (p : QP) (i : Nat) : Except Err QP :=
  match p.objective.linear.getItem p.varsIndex (.idx i) with
  | .error e => .error e
  | .ok c =>
    match p.objective.quadratic.getItem p.varsIndex (.idx i) (.idx i) with
    | .error e => .error e
    | .ok d =>
      match shiftLinear p.objective.quadratic p.varsIndex i p.numVars 0 p.objective.linear with
      | .error e => .error e
      | .ok l =>
        .ok { p with objective := { p.objective with constant := p.objective.constant + c + d, linear := l } }

/-- The dictionary `replacements`: replaced name to (replacing name, sign). -/
abbrev Replacements := Assoc String (String × Int)

/-- One iteration of the loop (`recursive_minimum_eigen_optimizer.py:240-281`), after the call of the optimizer: the
program before the substitution (modified in place in the second branch), the program after it, and the
replacement. -/
def reduceStep (samples : List Sample) (p : QP) : Except Err (QP × QP × String × String × Int) :=
  match correlationSize samples with
  | .error e => .error e
  | .ok n =>
    match strongest samples n with
    | .error e => .error e
    | .ok (i, j) =>
      match p.vars[i]?, p.vars[j]? with
      | some vi, some vj =>
        if correlation samples i j > 0 then
          match p.substitute [] [(.idx i, .idx j, 1)] with
          | .error e => .error e
          | .ok q =>
            if q.status = .infeasible then .error .optimization
            else .ok (p, q, vi.name, vj.name, 1)
        else
          match shiftProgram p i with
          | .error e => .error e
          | .ok p' =>
            match p'.substitute [] [(.idx i, .idx j, -1)] with
            | .error e => .error e
            | .ok q =>
              if q.status = .infeasible then .error .optimization
              else .ok (p', q, vi.name, vj.name, -1)
      | _, _ => .error .indexError

/-- The `while` loop (`recursive_minimum_eigen_optimizer.py:233-281`).  `solver` is `self._optimizer.solve`; it gets
the number of the iteration because optimizers may be stateful.  The result is `none` when the fuel runs out.  The
collected history is not modelled. -/
def reduceLoop (solver : Nat → QP → Except Err Result) (minNumVars : Nat) :
    Nat → Nat → QP → Replacements → Option (Except Err (QP × Replacements))
  | 0, _, _, _ => none
  | fuel + 1, t, p, reps =>
    if p.numVars > minNumVars then
      match solver t p with
      | .error e => some (.error e)
      | .ok res =>
        match reduceStep res.samples p with
        | .error e => some (.error e)
        | .ok (_, q, xi, xj, sgn) => reduceLoop solver minNumVars fuel (t + 1) q (Assoc.set reps xi (xj, sgn))
    else some (.ok (p, reps))

/-- `find_value` (`recursive_minimum_eigen_optimizer.py:291-304`), with the updated `var_values`.  The fuel bounds the
depth of the recursion; cyclic replacements would be a RecursionError in Python (as would be more than about a thousand
nested calls, which is not modelled). -/
def findValue (reps : Replacements) : Nat → String → Assoc String ℚ → Except Err (ℚ × Assoc String ℚ)
  | 0, _, _ => .error .overflowError
  | fuel + 1, x, vals =>
    match Assoc.get? vals x with
    | some v => .ok (v, vals)
    | none =>
      match Assoc.get? reps x with
      | none => .error .optimization
      | some (y, sgn) =>
        match findValue reps fuel y vals with
        | .error e => .error e
        | .ok (value, vals) =>
          let v := if sgn = 1 then value else 1 - value
          .ok (v, Assoc.set vals x v)

/-- The loop over all variables (`recursive_minimum_eigen_optimizer.py:306-309`). -/
def unrollLoop (reps : Replacements) : List Variable → Assoc String ℚ → Except Err (Assoc String ℚ)
  | [], vals => .ok vals
  | v :: vs, vals =>
    if Assoc.has vals v.name then unrollLoop reps vs vals
    else match findValue reps (reps.length + 1) v.name vals with
      | .error e => .error e
      | .ok (_, vals) => unrollLoop reps vs vals

/-- `var_values` before unrolling (`recursive_minimum_eigen_optimizer.py:286-289`).  A result without a point is a
TypeError, a point that is too short an IndexError. -/
def initValues (vars : List Variable) (x : Option (List ℚ)) : Except Err (Assoc String ℚ) :=
  match x with
  | none => if vars = [] then .ok [] else .error .typeError
  | some x =>
    if x.length < vars.length then .error .indexError
    else .ok (Assoc.ofEntries ((vars.map Variable.name).zip x))

/-- `[var_values[x_aux.name] for x_aux in problem_ref.variables]` (`recursive_minimum_eigen_optimizer.py:319`). -/
def collectValues (vals : Assoc String ℚ) : List Variable → Except Err (List ℚ)
  | [] => .ok []
  | v :: vs =>
    match Assoc.get? vals v.name with
    | none => .error .keyError
    | some a =>
      match collectValues vals vs with
      | .error e => .error e
      | .ok r => .ok (a :: r)

/-- Unrolling of the replacements (`recursive_minimum_eigen_optimizer.py:286-309, 319`): `final` is the reduced
program, `ref` the program before the reduction. -/
def unroll (reps : Replacements) (final ref : QP) (x : Option (List ℚ)) : Except Err (List ℚ) :=
  match initValues final.vars x with
  | .error e => .error e
  | .ok vals =>
    match unrollLoop reps ref.vars vals with
    | .error e => .error e
    | .ok vals => collectValues vals ref.vars

/-- The caller's program after the first iteration: without converters `problem_` is the caller's object, which the
first iteration modifies in place (`recursive_minimum_eigen_optimizer.py:227, 261-275`,
`optimization_algorithm.py:413-421`); later iterations work on programs made by `substitute_variables`. -/
def callersProgram (solver : Nat → QP → Except Err Result) (minNumVars : Nat) (converters : List Converter) (p : QP) :
    QP :=
  if converters.length = 0 ∧ p.numVars > minNumVars then
    match solver 0 p with
    | .error _ => p
    | .ok res =>
      match reduceStep res.samples p with
      | .error _ => p
      | .ok (p', _, _, _, _) => p'
  else p

/-- What `solve` returns: the result, the point of the converted program before interpretation, the replacements, the
reduced program and the result for it, and the caller's program after the call. -/
structure RecResult where
  result : Result
  point : List ℚ
  replacements : Replacements
  reduced : QP
  reducedResult : Result
  callers : QP

/-- `RecursiveMinimumEigenOptimizer.solve` (`recursive_minimum_eigen_optimizer.py:209-330`).  `minNumVars` is at least
one (checked by the constructor); `solver`, `last` are the two optimizers. -/
def recursiveSolve (solver : Nat → QP → Except Err Result) (last : QP → Except Err Result) (minNumVars : Nat)
    (converters : List Converter) (p : QP) (fuel : Nat) : Option (Except Err RecResult) :=
  if (quboMsg p).length > 0 then some (.error .optimization)
  else match convertAll converters p with
    | .error e => some (.error e)
    | .ok (ref, convs) =>
      match reduceLoop solver minNumVars fuel 0 ref [] with
      | none => none
      | some (.error e) => some (.error e)
      | some (.ok (final, reps)) =>
        match last final with
        | .error e => some (.error e)
        | .ok res =>
          match unroll reps final ref res.x with
          | .error e => some (.error e)
          | .ok x =>
            let callers := callersProgram solver minNumVars converters p
            match interpretResult callers convs [] [] x with
            | .error e => some (.error e)
            | .ok r => some (.ok ⟨r, x, reps, final, res, callers⟩)

end Verif
