import Verif.Result
import Mathlib.Analysis.SpecialFunctions.Trigonometric.Inverse
import Mathlib.Data.Real.Sqrt
import Mathlib.Analysis.Complex.Trigonometric

/-!
# Warm-start QAOA

Models `algorithms/warm_start_qaoa_optimizer.py`.  QAOA itself and the pre-solver are function arguments.
-/

namespace Verif

/-- `create_initial_variables` (`warm_start_qaoa_optimizer.py:134-154`). -/
def initialVariables (eps : ℚ) (solution : List ℚ) : List ℚ :=
  solution.map fun v => if v < eps then eps else if v > 1 - eps then 1 - eps else v

/-- The check of the constructor of the factory (`warm_start_qaoa_optimizer.py:113-132`; the same check in 257-261). -/
def factory (eps : ℚ) : Except Err (List ℚ → List ℚ) :=
  if eps < 0 ∨ eps > 1 / 2 then .error .optimization else .ok (initialVariables eps)

/-- `int(v)`: truncation towards zero. -/
def pyInt (v : ℚ) : Int := Int.tdiv v.num v.den

/-- `_to_string` (`warm_start_qaoa_optimizer.py:72-73`). -/
def stateKey (x : List ℚ) : String := String.join (x.map fun v => toString (pyInt v))

/-- One sample of the summation loop (`warm_start_qaoa_optimizer.py:81-91`). -/
def addSample (d : Assoc String (ℚ × ℚ)) (s : Sample) : Assoc String (ℚ × ℚ) :=
  match Assoc.get? d (stateKey s.x) with
  | some v => Assoc.set d (stateKey s.x) (s.fval, v.2 + s.probability)
  | none => Assoc.set d (stateKey s.x) (s.fval, s.probability)

/-- `result.samples` as set by the constructor (`optimization_algorithm.py:142-151`): without samples, one sample made
of the result itself.  If the result has no point, `_to_string(None)` is a TypeError. -/
def Result.sampleList (r : Result) : Except Err (List Sample) :=
  if r.samples ≠ [] then .ok r.samples
  else match r.x, r.fval with
    | some x, some f => .ok [⟨x, f, 1, r.status⟩]
    | _, _ => .error .typeError

/-- The summation loop over all results (`warm_start_qaoa_optimizer.py:79-91`). -/
def sumResults : List Result → Assoc String (ℚ × ℚ) → Except Err (Assoc String (ℚ × ℚ))
  | [], d => .ok d
  | r :: l, d =>
    match r.sampleList with
    | .error e => .error e
    | .ok ss => sumResults l (ss.foldl addSample d)

/-- The normalisation loop (`warm_start_qaoa_optimizer.py:93-105`), with `_from_string` (75-76): `float(c)` of a
character that is not a digit is a ValueError. -/
def meanSamples (num : Nat) : Assoc String (ℚ × ℚ) → Except Err (List Sample)
  | [] => .ok []
  | (k, v) :: l =>
    match digitsOf k.toList with
    | .error e => .error e
    | .ok x =>
      match meanSamples num l with
      | .error e => .error e
      | .ok r => .ok (⟨x, v.1, v.2 / num, .success⟩ :: r)

/-- `MeanAggregator.aggregate` (`warm_start_qaoa_optimizer.py:59-105`). -/
def meanAggregate (results : List Result) : Except Err (List Sample) :=
  match sumResults results [] with
  | .error e => .error e
  | .ok d => meanSamples results.length d

/-- `_relax_problem` (`warm_start_qaoa_optimizer.py:353-368`). -/
def QP.relaxAll (p : QP) : QP := { p with vars := p.vars.map fun v => { v with vartype := .continuous } }

/-- The loop over the initial solutions (`warm_start_qaoa_optimizer.py:319-329`): `qaoa v` is the eigensolver
configured with the circuits made from the initial variables `v`. -/
def warmRuns (qaoa : List ℚ → QubitOp → Option Eigenstate) (eps : ℚ) (op : QubitOp) (converted original : QP)
    (convs : List Interp) : List Sample → Except Err (List Result)
  | [] => .ok []
  | s :: l =>
    match solveInternal (qaoa (initialVariables eps s.x)) op converted original convs with
    | .error e => .error e
    | .ok r =>
      match warmRuns qaoa eps op converted original convs l with
      | .error e => .error e
      | .ok rs => .ok (r :: rs)

/-- `WarmStartQAOAOptimizer.solve` (`warm_start_qaoa_optimizer.py:279-351`) with the default factory, and with the
default aggregator (271-273): the mean when more than one initial solution is requested, otherwise `None`.  The
pre-solver answers with a status and samples.  The constructor rejects `eps` outside `[0, 1/2]` (257-261). -/
def warmStartSolve (preSolve : QP → Except Err (ResStatus × List Sample)) (relax : Bool)
    (qaoa : List ℚ → QubitOp → Option Eigenstate) (eps : ℚ) (numInitial : Nat) (convs : List Converter) (p : QP) :
    Except Err Result :=
  if eps < 0 ∨ eps > 1 / 2 then .error .optimization
  else if (quboMsg p).length > 0 then .error .optimization
  else match convertAll convs p with
    | .error e => .error e
    | .ok (q, fs) =>
      match preSolve (if relax then q.relaxAll else q) with
      | .error e => .error e
      | .ok (st, pre) =>
        if st ≠ .success then .error .optimization
        else match q.toIsing with
          | .error e => .error e
          | .ok (op, _) =>
            match warmRuns qaoa eps op q p fs (pre.take (min numInitial pre.length)) with
            | .error e => .error e
            | .ok [r] => .ok r
            | .ok results =>
              if numInitial ≤ 1 then .error .attributeError
              else match meanAggregate results with
                | .error e => .error e
                | .ok samples =>
                  let samples := sortedBy (fun a b =>
                    decide (q.objective.sense.value * a.fval ≤ q.objective.sense.value * b.fval)) samples
                  match samples with
                  | [] => .error .indexError
                  | s :: _ => interpretResult p fs samples [] s.x

/-! ## The circuits -/

/-- The one-qubit gates used: rotations about the y and z axes. -/
inductive Gate
  | ry (theta : ℝ) (qubit : Nat)
  | rz (phi : ℝ) (qubit : Nat)

/-- The angle of a qubit (`warm_start_qaoa_optimizer.py:168, 187`). -/
noncomputable def warmAngle (v : ℝ) : ℝ := 2 * Real.arcsin (Real.sqrt v)

/-- `create_initial_state` (`warm_start_qaoa_optimizer.py:156-172`): the gates in order; the first qubit is `k`. -/
noncomputable def initialState : Nat → List ℝ → List Gate
  | _, [] => []
  | k, v :: l => .ry (warmAngle v) k :: initialState (k + 1) l

/-- `create_mixer` (`warm_start_qaoa_optimizer.py:174-194`), with the value `beta` of the parameter. -/
noncomputable def mixer (beta : ℝ) : Nat → List ℝ → List Gate
  | _, [] => []
  | k, v :: l => .ry (-warmAngle v) k :: .rz (-2 * beta) k :: .ry (warmAngle v) k :: mixer beta (k + 1) l

end Verif
