import Verif.Docplex
import Verif.Result

/-!
# The CPLEX optimizer

Models `algorithms/cplex_optimizer.py`.  CPLEX is an argument.
-/

namespace Verif

/-- What CPLEX does with a model: `cplex.solve()` raises a `CplexSolverError`; it returns, but there is no solution and
`get_values` raises an error; or there are a point (in the order of the variables of the model) and an objective value. -/
inductive CplexOutcome
  | raised
  | noValues (e : Err)
  | solved (x : List ℚ) (fval : ℚ)

/-- `CplexOptimizer.solve` (`cplex_optimizer.py:103-148`).  `trivial` is as in `toDocplex`.  Only the call of `solve` is
guarded; the error of `get_values` reaches the caller.  Display settings and `raw_results` are not modelled. -/
def cplexSolve (trivial : Bool → Option String → Except Err (List DCst)) (cplex : DModel → CplexOutcome) (p : QP) :
    Except Err Result :=
  match toDocplex trivial p with
  | .error e => .error e
  | .ok m =>
    match cplex m with
    | .raised => .error .optimization
    | .noValues e => .error e
    | .solved x fval =>
      match feasibilityStatus p x with
      | .error e => .error e
      | .ok status => Result.mk? (some x) (some fval) p.vars status [] []

end Verif
