import Verif.Result
import Verif.IntToBin

/-!
# The ADMM optimizer

Models `algorithms/admm_optimizer.py`.  The two optimizers it calls, the Euclidean norm and the clock are arguments.
Not modelled: log messages (with the LP text computed for them), the unused matrices `q1`, `c1`.
-/

namespace Verif

/-- `ADMMParameters` (`admm_optimizer.py:42-129`); `max_time` belongs to the clock argument of `admmSolve`. -/
structure AdmmParams where
  rhoInitial : ℚ
  factorC : ℚ
  beta : ℚ
  maxiter : Nat
  tol : ℚ
  threeBlock : Bool
  varyRho : Nat
  tauIncr : ℚ
  tauDecr : ℚ
  muRes : ℚ
  muMerit : ℚ
  warmStart : Bool

/-- `(-1) * coefficients` for a linear expression. -/
def LinExpr.negated (e : LinExpr) : LinExpr := ⟨e.n, e.coeffs.map fun q => (q.1, (-1) * q.2)⟩

/-- `(-1) * coefficients` for a quadratic expression. -/
def QuadExpr.negated (e : QuadExpr) : QuadExpr := ⟨e.n, e.coeffs.map fun q => (q.1, (-1) * q.2)⟩

/-- `_turn_to_minimization` (`admm_optimizer.py:421-442`): the program; the returned sense is
`problem.objective.sense.value`.  The assignments go through the setters (`quadratic_objective.py:91-137`). -/
def turnToMinimization (p : QP) : Except Err QP :=
  match p.objective.sense with
  | .minimize => .ok p
  | .maximize =>
    match LinExpr.ofInput p.varsIndex p.numVars (.sparse p.objective.linear.negated) with
    | .error e => .error e
    | .ok l =>
      match QuadExpr.ofInput p.varsIndex p.numVars (.sparse p.objective.quadratic.negated) with
      | .error e => .error e
      | .ok q => .ok { p with objective := ⟨(-1) * p.objective.constant, l, q, .minimize⟩ }

/-- `_get_variable_indices` (`admm_optimizer.py:445-460`). -/
def variableIndices (t : VarType) (p : QP) : List Nat :=
  (p.vars.zipIdx.filter fun q => q.1.vartype = t).map Prod.snd

/-- `get_compatibility_msg` (`admm_optimizer.py:255-282`): true when the message is empty.  The products of a binary and
a continuous variable are looked up one by one, an index beyond the matrix is an IndexError. -/
def admmCompatible (p : QP) : Except Err Bool :=
  let bins := variableIndices .binary p
  let conts := variableIndices .continuous p
  let q := p.objective.quadratic
  if bins ≠ [] ∧ conts ≠ [] ∧ ¬ (bins ++ conts).all (fun i => decide (i < q.n)) then .error .indexError
  else .ok (bins.all fun i => conts.all fun j => decide (Dict.get q.coeffs (min i j, max i j) = 0))

/-- The loop of `solution.put(indices, values)`, from the value with index `k` on: values are repeated when there are
too few of them. -/
def putFrom (vals : List ℚ) : Nat → List Nat → List ℚ → Except Err (List ℚ)
  | _, [], sol => .ok sol
  | k, i :: is, sol =>
    if i < sol.length then putFrom vals (k + 1) is (sol.set i (pt vals (k % vals.length))) else .error .indexError

/-- `solution.put(indices, values)` (numpy); without values nothing is done. -/
def put (sol : List ℚ) (idx : List Nat) (vals : List ℚ) : Except Err (List ℚ) :=
  if vals = [] then .ok sol else putFrom vals 0 idx sol

/-- `array.take(indices)` and `array[indices]` (numpy). -/
def takeIdx (a : List ℚ) (idx : List Nat) : Except Err (List ℚ) :=
  if idx.all fun i => decide (i < a.length) then .ok (idx.map (pt a)) else .error .indexError

/-- `_revert_solution_indexes` (`admm_optimizer.py:470-487`). -/
def revertIndexes (binIdx contIdx : List Nat) (bins conts : List ℚ) : Except Err (List ℚ) :=
  match put (List.replicate (binIdx.length + contIdx.length) 0) binIdx bins with
  | .error e => .error e
  | .ok sol => put sol contIdx conts

/-- What `_convert_problem_representation` computes (`admm_optimizer.py:489-526`), with the program and the indices of
its variables. -/
structure AdmmRep where
  op : QP
  binIdx : List Nat
  contIdx : List Nat
  eqs : List Cst
  ineqs : List Cst
  binEqs : List LinCst
  step1Abs : List Nat
  step1Rel : List Nat
  q0 : List (List ℚ)
  c0 : List ℚ
  a0 : List (List ℚ)
  b0 : List ℚ

/-- Linear equality constraints that contain binary variables only (`admm_optimizer.py:493-501`). -/
def binaryEqualities (p : QP) : List LinCst :=
  p.lins.filter fun c => decide (c.sense = .eq) &&
    (Assoc.keys c.linear.coeffs).all fun k => decide (k ∈ variableIndices .binary p)

/-- `equality_constraints` (`admm_optimizer.py:493-496, 507-509`). -/
def equalities (p : QP) : List Cst :=
  (p.lins.filter fun c => decide (c.sense = .eq)).map .lin ++ (p.quads.filter fun c => decide (c.sense = .eq)).map .quad

/-- `inequality_constraints` (`admm_optimizer.py:503-504, 510-511`). -/
def inequalities (p : QP) : List Cst :=
  (p.lins.filter fun c => decide (c.sense = .le ∨ c.sense = .ge)).map .lin ++
    (p.quads.filter fun c => decide (c.sense = .le ∨ c.sense = .ge)).map .quad

/-- The test at `admm_optimizer.py:544-549`: a linear coefficient, or a non-zero entry in the row of the stored matrix
(`np.abs(coefficients[i, :]).sum() != 0`). -/
def inObjective (p : QP) (i : Nat) : Except Err Bool :=
  match p.objective.linear.getItem p.varsIndex (.idx i) with
  | .error e => .error e
  | .ok c =>
    if c ≠ 0 then .ok true
    else if i < p.objective.quadratic.n then
      .ok (decide (((p.objective.quadratic.coeffs.filter fun q => q.1.1 = i).map fun q => |q.2|).sum ≠ 0))
    else .error .indexError

/-- The first loop of `_get_step1_indices` (`admm_optimizer.py:541-552`). -/
def step1Objective (p : QP) : List Nat → List Nat → Except Err (List Nat)
  | [], acc => .ok acc
  | i :: is, acc =>
    match inObjective p i with
    | .error e => .error e
    | .ok b => step1Objective p is (if b = true ∧ i ∉ acc then acc ++ [i] else acc)

/-- The inner loop `admm_optimizer.py:560-566` for one constraint.  The iteration order of the set `rest_binary` is not
specified; the list is sorted afterwards, so it does not matter. -/
def step1Constraint (p : QP) (c : LinCst) : List Nat → List Nat → Except Err (List Nat)
  | [], acc => .ok acc
  | i :: is, acc =>
    match c.linear.getItem p.varsIndex (.idx i) with
    | .error e => .error e
    | .ok v => step1Constraint p c is (if v > 0 ∧ i ∉ acc then acc ++ [i] else acc)

/-- The outer loop `admm_optimizer.py:559-566`. -/
def step1Constraints (p : QP) (rest : List Nat) : List LinCst → List Nat → Except Err (List Nat)
  | [], acc => .ok acc
  | c :: cs, acc =>
    match step1Constraint p c rest acc with
    | .error e => .error e
    | .ok acc => step1Constraints p rest cs acc

/-- The absolute indices (`admm_optimizer.py:536-570`). -/
def step1Absolute (p : QP) : Except Err (List Nat) :=
  match step1Objective p (variableIndices .binary p) [] with
  | .error e => .error e
  | .ok acc =>
    match step1Constraints p ((variableIndices .binary p).filter fun i => i ∉ acc) (binaryEqualities p) acc with
    | .error e => .error e
    | .ok acc => .ok (sortedBy (fun a b => decide (a ≤ b)) acc)

/-- `for j in range(relative_index, len(binary_indices)): if binary_indices[j] == abs_index: …`
(`admm_optimizer.py:583-587`): `l` is the rest of the list, `j` the index of its first element. -/
def findFrom (a : Nat) : List Nat → Nat → Option Nat
  | [], _ => none
  | b :: l, j => if b = a then some j else findFrom a l (j + 1)

/-- The relative indices (`admm_optimizer.py:575-593`), from the current `relative_index` on. -/
def relativeIndices (bins : List Nat) : Nat → List Nat → Except Err (List Nat)
  | _, [] => .ok []
  | r, a :: l =>
    match findFrom a (bins.drop r) r with
    | none => .error .valueError
    | some j =>
      match relativeIndices bins j l with
      | .error e => .error e
      | .ok is => .ok (j :: is)

/-- `_get_q` (`admm_optimizer.py:595-616`). -/
def getQ (q : QuadExpr) (idx : List Nat) : Except Err (List (List ℚ)) :=
  if idx.all fun i => decide (i < q.n) then
    .ok ((List.range idx.length).map fun i => (List.range idx.length).map fun j =>
      if i ≤ j then Dict.get q.coeffs (min (idx.getD i 0) (idx.getD j 0), max (idx.getD i 0) (idx.getD j 0)) else 0)
  else .error .indexError

/-- The rows collected by `_get_a0_b0` (`admm_optimizer.py:631-635`). -/
def a0Rows (idx : List Nat) : List LinCst → Except Err (List (List ℚ))
  | [] => .ok []
  | c :: cs =>
    match takeIdx c.linear.toArray idx with
    | .error e => .error e
    | .ok row =>
      match a0Rows idx cs with
      | .error e => .error e
      | .ok rows => .ok (row :: rows)

/-- `_get_a0_b0` (`admm_optimizer.py:618-644`). -/
def getA0B0 (idx : List Nat) (cs : List LinCst) : Except Err (List (List ℚ) × List ℚ) :=
  match a0Rows idx cs with
  | .error e => .error e
  | .ok [] => .ok ([List.replicate idx.length 0], [0])
  | .ok (r :: rs) => .ok (r :: rs, cs.map LinCst.rhs)

/-- `_convert_problem_representation` (`admm_optimizer.py:489-526`). -/
def admmRep (p : QP) : Except Err AdmmRep :=
  match step1Absolute p with
  | .error e => .error e
  | .ok step1 =>
    match relativeIndices (variableIndices .binary p) 0 step1 with
    | .error e => .error e
    | .ok rel =>
      match getQ p.objective.quadratic step1 with
      | .error e => .error e
      | .ok q0 =>
        match takeIdx p.objective.linear.toArray step1 with
        | .error e => .error e
        | .ok c0 =>
          match getA0B0 step1 (binaryEqualities p) with
          | .error e => .error e
          | .ok (a0, b0) =>
            .ok ⟨p, variableIndices .binary p, variableIndices .continuous p, equalities p, inequalities p,
              binaryEqualities p, step1, rel, q0, c0, a0, b0⟩

/-- The part of `ADMMState` that changes (`admm_optimizer.py:157-177`).  `zSaved` gets `z` and `y` in every iteration
(`admm_optimizer.py:386-387`); `y_saved` is never filled. -/
structure AdmmState where
  rho : ℚ
  u : List ℚ
  x0 : List ℚ
  z : List ℚ
  y : List ℚ
  lam : List ℚ
  costs : List ℚ
  residuals : List ℚ
  dualResiduals : List ℚ
  consR : List ℚ
  merits : List ℚ
  x0Saved : List (List ℚ)
  uSaved : List (List ℚ)
  zSaved : List (List ℚ)

/-- An optimizer called by ADMM: the number of the call (optimizers may be stateful), the program, the point of the
result.  `OptimizationResult` makes sure that the point has as many values as the program has variables (C29); other
points are rejected by `checkedSolve`. -/
abbrev Solver := Nat → QP → Except Err (List ℚ)

def checkedSolve (solver : Solver) (t : Nat) (p : QP) : Except Err (List ℚ) :=
  match solver t p with
  | .error e => .error e
  | .ok x => if x.length = p.numVars then .ok x else .error .optimization

/-- `for i in …: op.binary_var(name=…)` (`admm_optimizer.py:656-659`). -/
def addBinaries (vars : List Variable) : List Nat → QP → Except Err QP
  | [], op => .ok op
  | i :: is, op =>
    match op.binaryVar (some (varName vars i)) with
    | (.error e, _) => .error e
    | (.ok _, op) => addBinaries vars is op

/-- Entry of a matrix given by rows. -/
def entry (m : List (List ℚ)) (i j : Nat) : ℚ := pt (m.getD i []) j

/-- Entry `i, j` of `a0.transpose() @ a0`. -/
def gram (a : List (List ℚ)) (i j : Nat) : ℚ := (a.map fun r => pt r i * pt r j).sum

/-- Entry `i` of `b0 @ a0`. -/
def rhsRow (a : List (List ℚ)) (b : List ℚ) (i : Nat) : ℚ := (List.zipWith (fun r v => v * pt r i) a b).sum

/-- `quadratic_objective` (`admm_optimizer.py:662-666`). -/
def step1Quadratic (prm : AdmmParams) (r : AdmmRep) (s : AdmmState) : List (List ℚ) :=
  (List.range r.step1Abs.length).map fun i => (List.range r.step1Abs.length).map fun j =>
    entry r.q0 i j + prm.factorC / 2 * gram r.a0 i j + s.rho / 2 * (if i = j then 1 else 0)

/-- `linear_objective` (`admm_optimizer.py:670-679`). -/
def step1Linear (prm : AdmmParams) (r : AdmmRep) (s : AdmmState) : List ℚ :=
  (List.range r.step1Abs.length).map fun i =>
    pt r.c0 i - prm.factorC * rhsRow r.a0 r.b0 i
      + s.rho * (-pt s.y (r.step1Rel.getD i 0) - pt s.z (r.step1Rel.getD i 0)) + pt s.lam (r.step1Rel.getD i 0)

/-- `_create_step1_problem` (`admm_optimizer.py:646-682`). -/
def step1Problem (prm : AdmmParams) (r : AdmmRep) (s : AdmmState) : Except Err QP :=
  match addBinaries r.op.vars r.step1Abs (QP.empty "") with
  | .error e => .error e
  | .ok op =>
    match QuadExpr.ofInput op.varsIndex op.numVars (.matrix (step1Quadratic prm r s)) with
    | .error e => .error e
    | .ok q =>
      match LinExpr.ofInput op.varsIndex op.numVars (.list (step1Linear prm r s)) with
      | .error e => .error e
      | .ok l => .ok { op with objective := { op.objective with linear := l, quadratic := q } }

/-- The variable changes of `_create_step2_problem` (`admm_optimizer.py:695-698`). -/
def relaxVar (v : Variable) : Except Err Variable :=
  match ({ v with vartype := .continuous } : Variable).setUb 1 with
  | .error e => .error e
  | .ok v => v.setLb 0

/-- The loop of `_create_step2_problem` (`admm_optimizer.py:694-704`), from position `k` of the binary variables on. -/
def step2Vars (s : AdmmState) : Nat → List Nat → QP → Except Err QP
  | _, [], op => .ok op
  | k, i :: is, op =>
    match op.vars[i]? with
    | none => .error .indexError
    | some v =>
      match relaxVar v with
      | .error e => .error e
      | .ok v =>
        match op.objective.quadratic.setItem op.varsIndex (.idx i) (.idx i) (s.rho / 2) with
        | .error e => .error e
        | .ok q =>
          match op.objective.linear.setItem op.varsIndex (.idx i) (-1 * pt s.lam k - s.rho * (pt s.x0 k - pt s.y k)) with
          | .error e => .error e
          | .ok l =>
            step2Vars s (k + 1) is
              { op with vars := op.vars.set i v, objective := { op.objective with linear := l, quadratic := q } }

/-- `for constraint in …: op2.remove_linear_constraint(constraint.name)` (`admm_optimizer.py:707-708`). -/
def removeConstraints : List LinCst → QP → Except Err QP
  | [], op => .ok op
  | c :: cs, op =>
    match op.removeLinear (.name c.name) with
    | (.error e, _) => .error e
    | (.ok _, op) => removeConstraints cs op

/-- `_create_step2_problem` (`admm_optimizer.py:684-710`). -/
def step2Problem (r : AdmmRep) (s : AdmmState) : Except Err QP :=
  match step2Vars s 0 r.binIdx r.op with
  | .error e => .error e
  | .ok op => removeConstraints r.binEqs op

/-- `for i in …: op3.continuous_var(lowerbound=-np.inf, upperbound=np.inf, name=…)` (`admm_optimizer.py:721-723`).
The bounds are infinite; here they are `-INFINITY` and `INFINITY`. -/
def addFree (vars : List Variable) : List Nat → QP → Except Err QP
  | [], op => .ok op
  | i :: is, op =>
    match op.continuousVar (-INFINITY) INFINITY (some (varName vars i)) with
    | (.error e, _) => .error e
    | (.ok _, op) => addFree vars is op

/-- `_create_step3_problem` (`admm_optimizer.py:712-734`). -/
def step3Problem (prm : AdmmParams) (r : AdmmRep) (s : AdmmState) : Except Err QP :=
  match addFree r.op.vars r.binIdx (QP.empty "") with
  | .error e => .error e
  | .ok op =>
    match QuadExpr.ofInput op.varsIndex op.numVars (.matrix
        ((List.range r.binIdx.length).map fun i => (List.range r.binIdx.length).map fun j =>
          prm.beta / 2 * (if i = j then 1 else 0) + s.rho / 2 * (if i = j then 1 else 0))) with
    | .error e => .error e
    | .ok q =>
      match LinExpr.ofInput op.varsIndex op.numVars (.list
          ((List.range r.binIdx.length).map fun i => -pt s.lam i - s.rho * (pt s.x0 i - pt s.z i))) with
      | .error e => .error e
      | .ok l => .ok { op with objective := { op.objective with linear := l, quadratic := q } }

/-- `_update_x0` (`admm_optimizer.py:736-748`), called when there are step 1 variables (`admm_optimizer.py:335-337`). -/
def updateX0 (qubo : Solver) (t : Nat) (prm : AdmmParams) (r : AdmmRep) (s : AdmmState) : Except Err (List ℚ) :=
  if r.step1Abs = [] then .ok s.x0
  else
    match step1Problem prm r s with
    | .error e => .error e
    | .ok op1 =>
      match checkedSolve qubo t op1 with
      | .error e => .error e
      | .ok x => put (List.replicate r.binIdx.length 0) r.step1Rel x

/-- Step 2 (`admm_optimizer.py:344-345`) with `_update_x1` (`admm_optimizer.py:750-765`): the pair `u`, `z`. -/
def updateX1 (cont : Solver) (t : Nat) (r : AdmmRep) (s : AdmmState) : Except Err (List ℚ × List ℚ) :=
  match step2Problem r s with
  | .error e => .error e
  | .ok op2 =>
    match checkedSolve cont t op2 with
    | .error e => .error e
    | .ok x =>
      match takeIdx x r.contIdx with
      | .error e => .error e
      | .ok u =>
        match takeIdx x r.binIdx with
        | .error e => .error e
        | .ok z => .ok (u, z)

/-- Step 3 (`admm_optimizer.py:351-358`) with `_update_y` (`admm_optimizer.py:767-777`). -/
def updateY (cont : Solver) (t : Nat) (prm : AdmmParams) (r : AdmmRep) (s : AdmmState) : Except Err (List ℚ) :=
  if prm.threeBlock = true ∧ r.binIdx ≠ [] then
    match step3Problem prm r s with
    | .error e => .error e
    | .ok op3 => checkedSolve cont t op3
  else .ok s.y

/-- `x0 - z - y`, the vectors have one entry for every binary variable. -/
def splitGap (m : Nat) (s : AdmmState) : List ℚ := (List.range m).map fun i => pt s.x0 i - pt s.z i - pt s.y i

/-- `_update_lambda_mult` (`admm_optimizer.py:797-807`). -/
def updateLambda (m : Nat) (s : AdmmState) : List ℚ :=
  (List.range m).map fun i => pt s.lam i + s.rho * pt (splitGap m s) i

/-- `_update_rho` (`admm_optimizer.py:809-825`). -/
def updateRho (prm : AdmmParams) (rho primal dual : ℚ) : ℚ :=
  if prm.varyRho = 0 then
    if rho < 10 ^ 10 then rho * (11 / 10) else rho
  else if prm.varyRho = 1 then
    if primal > prm.muRes * dual then prm.tauIncr * rho
    else if dual > prm.muRes * primal then prm.tauDecr * rho
    else rho
  else rho

/-- The loop over the equality constraints (`admm_optimizer.py:839-840`). -/
def residualEq (x : List ℚ) : List Cst → ℚ → Except Err ℚ
  | [], acc => .ok acc
  | c :: cs, acc =>
    match c.evaluate x with
    | .error e => .error e
    | .ok v => residualEq x cs (acc + |v - c.rhs|)

/-- The loop over the inequality constraints (`admm_optimizer.py:844-846`). -/
def residualIneq (x : List ℚ) : List Cst → ℚ → Except Err ℚ
  | [], acc => .ok acc
  | c :: cs, acc =>
    match c.evaluate x with
    | .error e => .error e
    | .ok v => residualIneq x cs (acc + max ((if c.sense = .ge then -1 else 1) * (v - c.rhs)) 0)

/-- `_get_constraint_residual` (`admm_optimizer.py:827-848`) at the current solution `x`. -/
def constraintResidual (r : AdmmRep) (x : List ℚ) : Except Err ℚ :=
  match residualEq x r.eqs 0 with
  | .error e => .error e
  | .ok a =>
    match residualIneq x r.ineqs 0 with
    | .error e => .error e
    | .ok b => .ok (a + b)

/-- `_get_merit` (`admm_optimizer.py:850-860`). -/
def merit (prm : AdmmParams) (cost residual : ℚ) : ℚ := cost + prm.muMerit * residual

/-- `_get_solution_residuals` (`admm_optimizer.py:870-887`); `z_init` is the zero vector of the constructor
(`admm_optimizer.py:160-161`), also after a warm start.  An index beyond `z_saved` is an IndexError. -/
def solutionResiduals (norm : List ℚ → ℚ) (m : Nat) (s : AdmmState) (iteration : Nat) : Except Err (ℚ × ℚ) :=
  let primal := norm (splitGap m s)
  if iteration > 0 then
    match s.zSaved[iteration - 1]? with
    | none => .error .indexError
    | some prev => .ok (primal, s.rho * norm ((List.range m).map fun i => pt s.z i - pt prev i))
  else .ok (primal, s.rho * norm ((List.range m).map fun i => pt s.z i - pt (List.replicate m 0) i))

/-- The bookkeeping of one iteration (`admm_optimizer.py:360-389`), after the three steps: `lambda`, costs, residuals,
the saved iterates, `rho`; with the primal residual. -/
def admmRecord (norm : List ℚ → ℚ) (prm : AdmmParams) (r : AdmmRep) (iteration : Nat) (s : AdmmState) :
    Except Err (AdmmState × ℚ) :=
  let m := r.binIdx.length
  let s := { s with lam := updateLambda m s }
  match revertIndexes r.binIdx r.contIdx s.x0 s.u with
  | .error e => .error e
  | .ok x =>
    match r.op.objective.evaluate x with
    | .error e => .error e
    | .ok cost =>
      match constraintResidual r x with
      | .error e => .error e
      | .ok cr =>
        match solutionResiduals norm m s iteration with
        | .error e => .error e
        | .ok (primal, dual) =>
          .ok ({ s with
                 costs := s.costs ++ [cost]
                 residuals := s.residuals ++ [primal]
                 dualResiduals := s.dualResiduals ++ [dual]
                 consR := s.consR ++ [cr]
                 merits := s.merits ++ [merit prm cost cr]
                 x0Saved := s.x0Saved ++ [s.x0]
                 uSaved := s.uSaved ++ [s.u]
                 zSaved := s.zSaved ++ [s.z] ++ [s.y]
                 rho := updateRho prm s.rho primal dual }, primal)

/-- The three steps of one iteration (`admm_optimizer.py:335-358`). -/
def admmBlocks (qubo cont : Solver) (prm : AdmmParams) (r : AdmmRep) (iteration : Nat) (s : AdmmState) :
    Except Err AdmmState :=
  match updateX0 qubo iteration prm r s with
  | .error e => .error e
  | .ok x0 =>
    let s := { s with x0 := x0 }
    match updateX1 cont (2 * iteration + 1) r s with
    | .error e => .error e
    | .ok (u, z) =>
      let s := { s with u := u, z := z }
      match updateY cont (2 * iteration + 2) prm r s with
      | .error e => .error e
      | .ok y => .ok { s with y := y }

/-- The `while` loop (`admm_optimizer.py:332-392`): `k` iterations are left until `maxiter`; `clock t` tells whether the
elapsed time is still below `max_time` after `t` iterations. -/
def admmLoop (qubo cont : Solver) (norm : List ℚ → ℚ) (clock : Nat → Bool) (prm : AdmmParams) (r : AdmmRep) :
    Nat → Nat → ℚ → AdmmState → Except Err AdmmState
  | 0, _, _, s => .ok s
  | k + 1, iteration, residual, s =>
    if residual > prm.tol ∧ clock iteration = true then
      match admmBlocks qubo cont prm r iteration s with
      | .error e => .error e
      | .ok s =>
        match admmRecord norm prm r iteration s with
        | .error e => .error e
        | .ok (s, primal) => admmLoop qubo cont norm clock prm r k (iteration + 1) primal s
    else .ok s

/-- `ADMMState.__init__` (`admm_optimizer.py:157-177`). -/
def admmInit (prm : AdmmParams) (p : QP) : AdmmState :=
  let m := (variableIndices .binary p).length
  ⟨prm.rhoInitial, List.replicate (variableIndices .continuous p).length 0, List.replicate m 0, List.replicate m 0,
    List.replicate m 0, List.replicate m 0, [], [], [], [], [], [], [], []⟩

/-- `_warm_start` (`admm_optimizer.py:889-909`). -/
def admmWarmStart (cont : Solver) (p : QP) (s : AdmmState) : Except Err AdmmState :=
  match checkedSolve cont 0 { p with vars := p.vars.map fun v => { v with vartype := .continuous } } with
  | .error e => .error e
  | .ok x =>
    match takeIdx x (variableIndices .binary p) with
    | .error e => .error e
    | .ok x0 =>
      match takeIdx x (variableIndices .continuous p) with
      | .error e => .error e
      | .ok u => .ok { s with x0 := x0, u := u, z := x0 }

/-- `merits.index(min(merits))` (`admm_optimizer.py:791`); an empty list is a ValueError. -/
def minIndex : List ℚ → Except Err Nat
  | [] => .error .valueError
  | a :: l => .ok ((a :: l).idxOf (l.foldl min a))

/-- `_get_best_merit_solution` (`admm_optimizer.py:779-795`). -/
def bestMerit (s : AdmmState) : Except Err (List ℚ × List ℚ × ℚ) :=
  match minIndex s.merits with
  | .error e => .error e
  | .ok k =>
    match s.x0Saved[k]?, s.uSaved[k]?, s.costs[k]? with
    | some b, some c, some v => .ok (b, c, v)
    | _, _, _ => .error .indexError

/-- What `solve` returns, with the internal objects: the result, the converted minimization program in its
representation, the final state, the point before the interpretation. -/
structure AdmmResult where
  result : Result
  rep : AdmmRep
  state : AdmmState
  point : List ℚ

/-- `ADMMOptimizer.solve` (`admm_optimizer.py:284-418`). -/
def admmSolve (qubo cont : Solver) (norm : List ℚ → ℚ) (clock : Nat → Bool) (prm : AdmmParams) (p : QP) :
    Except Err AdmmResult :=
  match admmCompatible p with
  | .error e => .error e
  | .ok false => .error .optimization
  | .ok true =>
    match p.intToBin with
    | .error e => .error e
    | .ok conv =>
      match turnToMinimization conv.dst with
      | .error e => .error e
      | .ok q =>
        match (if prm.warmStart then admmWarmStart cont q (admmInit prm q) else .ok (admmInit prm q)) with
        | .error e => .error e
        | .ok s =>
          match admmRep q with
          | .error e => .error e
          | .ok r =>
            match admmLoop qubo cont norm clock prm r prm.maxiter 0 100 s with
            | .error e => .error e
            | .ok s =>
              match bestMerit s with
              | .error e => .error e
              | .ok (b, c, _) =>
                match revertIndexes r.binIdx r.contIdx b c with
                | .error e => .error e
                | .ok x =>
                  match interpretResult p [conv.interpret] [] [] x with
                  | .error e => .error e
                  | .ok res => .ok ⟨res, r, s, x⟩

end Verif
