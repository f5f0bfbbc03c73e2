import Verif.Result

/-!
# Multi-start, COBYLA and SLSQP optimizers

Models `algorithms/multistart_optimizer.py`, `algorithms/cobyla_optimizer.py` and `algorithms/slsqp_optimizer.py`.  The
numerical solvers of scipy are arguments.
-/

namespace Verif

/-- The random part of an initial guess (`multistart_optimizer.py:79-83`): the draws of `uniform.rvs(loc, scale)` are
`loc + scale * u` with `u` from `[0, 1]`; scipy rejects a negative scale with a ValueError. -/
def guessLoop (clip : ℚ) (u : Nat → ℚ) : Nat → List Variable → Except Err (List ℚ)
  | _, [] => .ok []
  | i, v :: vs =>
    let lowerbound := if v.lb > -INFINITY then v.lb else -clip
    let upperbound := if v.ub < INFINITY then v.ub else clip
    if upperbound - lowerbound < 0 then .error .valueError
    else match guessLoop clip u (i + 1) vs with
      | .error e => .error e
      | .ok r => .ok ((lowerbound + (upperbound - lowerbound) * u i) :: r)

/-- The initial guess of a trial (`multistart_optimizer.py:78-83`): zero for the first one. -/
def initialGuess (clip : ℚ) (u : Nat → Nat → ℚ) (p : QP) (trial : Nat) : Except Err (List ℚ) :=
  if trial > 0 then guessLoop clip (u trial) 0 p.vars else .ok (List.replicate p.numVars 0)

/-- The loop over the trials (`multistart_optimizer.py:77-96`) from trial number `trial` on, with `k` trials left.
`minimize` may depend on the trial (the solvers are stateful).  `rest_sol` is not modelled. -/
def trialLoop (clip : ℚ) (u : Nat → Nat → ℚ) (minimize : Nat → List ℚ → Except Err (List ℚ)) (p : QP) :
    Nat → Nat → ℚ → Option (List ℚ) → Except Err (ℚ × Option (List ℚ))
  | 0, _, fvalSol, xSol => .ok (fvalSol, xSol)
  | k + 1, trial, fvalSol, xSol =>
    match initialGuess clip u p trial with
    | .error e => .error e
    | .ok x0 =>
      match minimize trial x0 with
      | .error e => .error e
      | .ok x =>
        match p.objective.evaluate x with
        | .error e => .error e
        | .ok o =>
          let fval := o * p.objective.sense.value
          if fval < fvalSol then
            trialLoop clip u minimize p k (trial + 1) (fval * p.objective.sense.value) (some x)
          else trialLoop clip u minimize p k (trial + 1) fvalSol xSol

/-- `multi_start_solve` (`multistart_optimizer.py:58-104`).  Without any accepted trial `x_sol` is `None` and the
feasibility check raises a TypeError (`len(None)`). -/
def multiStartSolve (trials : Nat) (clip : ℚ) (u : Nat → Nat → ℚ) (minimize : Nat → List ℚ → Except Err (List ℚ))
    (p : QP) : Except Err Result :=
  match trialLoop clip u minimize p trials 0 INFINITY none with
  | .error e => .error e
  | .ok (_, none) => .error .typeError
  | .ok (fval, some x) =>
    match feasibilityStatus p x with
    | .error e => .error e
    | .ok status => Result.mk? (some x) (some fval) p.vars status [] []

/-- A function handed to a numerical solver. -/
abbrev Fn := List ℚ → Except Err ℚ

/-- `x[j]` of a numpy array. -/
def coord (x : List ℚ) (j : Nat) : Except Err ℚ :=
  match x[j]? with
  | some v => .ok v
  | none => .error .indexError

/-- `x[j] - l_b` (`cobyla_optimizer.py:133-134`). -/
def lbConstraint (lb : ℚ) (j : Nat) : Fn := fun x =>
  match coord x j with
  | .error e => .error e
  | .ok v => .ok (v - lb)

/-- `u_b - x[j]` (`cobyla_optimizer.py:139-140`). -/
def ubConstraint (ub : ℚ) (j : Nat) : Fn := fun x =>
  match coord x j with
  | .error e => .error e
  | .ok v => .ok (ub - v)

/-- The bounds as constraints (`cobyla_optimizer.py:128-142`). -/
def boundFns : Nat → List Variable → List Fn
  | _, [] => []
  | i, v :: vs =>
    (if v.lb > -INFINITY then [lbConstraint v.lb i] else []) ++
    (if v.ub < INFINITY then [ubConstraint v.ub i] else []) ++ boundFns (i + 1) vs

/-- `lambda x: rhs - c.evaluate(x)` (`cobyla_optimizer.py:154, 158`, `slsqp_optimizer.py:214, 216`). -/
def rhsMinus (c : Cst) : Fn := fun x =>
  match c.evaluate x with
  | .error e => .error e
  | .ok v => .ok (c.rhs - v)

/-- `lambda x: c.evaluate(x) - rhs` (`cobyla_optimizer.py:155, 160`, `slsqp_optimizer.py:218`). -/
def minusRhs (c : Cst) : Fn := fun x =>
  match c.evaluate x with
  | .error e => .error e
  | .ok v => .ok (v - c.rhs)

/-- The constraints as functions (`cobyla_optimizer.py:146-162`). -/
def cstFns : List Cst → List Fn
  | [] => []
  | c :: cs =>
    (match c.sense with
      | .eq => [rhsMinus c, minusRhs c]
      | .le => [rhsMinus c]
      | .ge => [minusRhs c]) ++ cstFns cs

/-- The list `constraints` passed to `fmin_cobyla` (`cobyla_optimizer.py:125-162`). -/
def cobylaConstraints (p : QP) : List Fn := boundFns 0 p.vars ++ cstFns p.csts

/-- The objective passed to the solvers (`cobyla_optimizer.py:121-122`, `slsqp_optimizer.py:188-189`). -/
def solverObjective (p : QP) : Fn := fun x =>
  match p.objective.evaluate x with
  | .error e => .error e
  | .ok v => .ok (p.objective.sense.value * v)

/-- The gradient passed to the solver (`slsqp_optimizer.py:191-192`). -/
def solverGradient (p : QP) (x : List ℚ) : Except Err (List ℚ) :=
  match p.objective.gradient x with
  | .error e => .error e
  | .ok g => .ok (g.map fun v => p.objective.sense.value * v)

/-- `slsqp_bounds` (`slsqp_optimizer.py:200-203`). -/
def slsqpBounds (p : QP) : List (ℚ × ℚ) := p.vars.map fun v => (v.lb, v.ub)

/-- `slsqp_eq_constraints` (`slsqp_optimizer.py:207-214`). -/
def slsqpEq : List Cst → List Fn
  | [] => []
  | c :: cs =>
    match c.sense with
    | .eq => rhsMinus c :: slsqpEq cs
    | .le => slsqpEq cs
    | .ge => slsqpEq cs

/-- `slsqp_ineq_constraints` (`slsqp_optimizer.py:207-220`). -/
def slsqpIneq : List Cst → List Fn
  | [] => []
  | c :: cs =>
    match c.sense with
    | .eq => slsqpIneq cs
    | .le => rhsMinus c :: slsqpIneq cs
    | .ge => minusRhs c :: slsqpIneq cs

/-- `get_num_continuous_vars` (`quadratic_program.py:571-577`). -/
def QP.numContinuous (p : QP) : Nat := (p.vars.filter fun v => v.vartype = .continuous).length

/-- The check of `get_compatibility_msg` (`cobyla_optimizer.py:86-102`, `slsqp_optimizer.py:153-169`): is the message
empty? -/
def onlyContinuous (p : QP) : Bool := !decide (p.vars.length > p.numContinuous)

/-- `CobylaOptimizer.solve` (`cobyla_optimizer.py:104-178`); `cobyla` stands for `fmin_cobyla` with the given
options, it gets the trial number (state), the objective, the initial guess and the constraints. -/
def cobylaSolve (cobyla : Nat → Fn → List ℚ → List Fn → Except Err (List ℚ)) (trials : Nat) (clip : ℚ)
    (u : Nat → Nat → ℚ) (p : QP) : Except Err Result :=
  if onlyContinuous p then
    multiStartSolve trials clip u (fun t x0 => cobyla t (solverObjective p) x0 (cobylaConstraints p)) p
  else .error .optimization

/-- `SlsqpOptimizer.solve` (`slsqp_optimizer.py:171-262`); `slsqp` stands for `fmin_slsqp`.  The additional output
fields are not modelled; the final result repeats the fields of the multi-start result. -/
def slsqpSolve (slsqp : Nat → Fn → (List ℚ → Except Err (List ℚ)) → List ℚ → List Fn → List Fn → List (ℚ × ℚ) →
      Except Err (List ℚ)) (trials : Nat) (clip : ℚ) (u : Nat → Nat → ℚ) (p : QP) : Except Err Result :=
  if onlyContinuous p then
    match multiStartSolve trials clip u (fun t x0 => slsqp t (solverObjective p) (solverGradient p) x0
        (slsqpEq p.csts) (slsqpIneq p.csts) (slsqpBounds p)) p with
    | .error e => .error e
    | .ok r =>
      match r.x with
      | none => .error .typeError
      | some x =>
        match feasibilityStatus p x with
        | .error e => .error e
        | .ok status => Result.mk? (some x) r.fval r.vars status [] []
  else .error .optimization

end Verif
