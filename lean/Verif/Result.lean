import Verif.Qubo
import Verif.Ising
import Mathlib.Data.Nat.Digits.Defs
import Mathlib.Data.List.Sort

/-!
# Results, samples and the minimum eigen optimizer

Models `algorithms/optimization_algorithm.py` (results, interpretation of points and samples, decoding of
eigenstates) and `algorithms/minimum_eigen_optimizer.py`.
-/

namespace Verif

/-- `OptimizationResultStatus` (`optimization_algorithm.py:32-42`). -/
inductive ResStatus
  | success | failure | infeasible
  deriving DecidableEq, Repr

/-- The values of the enumeration (`optimization_algorithm.py:35-41`). -/
def ResStatus.value : ResStatus → Nat
  | .success => 0
  | .failure => 1
  | .infeasible => 2

/-- `SolutionSample` (`optimization_algorithm.py:45-65`). -/
structure Sample where
  x : List ℚ
  fval : ℚ
  probability : ℚ
  status : ResStatus
  deriving DecidableEq, Repr

/-- `OptimizationResult` (`optimization_algorithm.py:68-330`).  Not modelled: raw results, the warning about the sum
of the probabilities, the default list of samples. -/
structure Result where
  x : Option (List ℚ)
  fval : Option ℚ
  vars : List Variable
  varsDict : Option (Assoc String ℚ)
  status : ResStatus
  samples : List Sample
  rawSamples : List Sample
  deriving DecidableEq

/-- `OptimizationResult.__init__` (`optimization_algorithm.py:102-151`). -/
def Result.mk? (x : Option (List ℚ)) (fval : Option ℚ) (vars : List Variable) (status : ResStatus)
    (samples rawSamples : List Sample) : Except Err Result :=
  match x with
  | none => .ok ⟨none, fval, vars, none, status, samples, rawSamples⟩
  | some x =>
    if x.length ≠ vars.length then .error .optimization
    else .ok ⟨some x, fval, vars, some (Assoc.ofEntries ((vars.map Variable.name).zip x)), status, samples,
      rawSamples⟩

/-- `__getitem__` (`optimization_algorithm.py:160-186`).  Negative integers are not modelled.  Indexing `None`
(no point was found) is a TypeError. -/
def Result.getItem (r : Result) : Key → Except Err ℚ
  | .idx i =>
    match r.x with
    | none => .error .typeError
    | some x => match x[i]? with | some v => .ok v | none => .error .indexError
  | .name s =>
    match r.varsDict with
    | none => .error .typeError
    | some d => match Assoc.get? d s with | some v => .ok v | none => .error .keyError

/-- One entry of the matrix of `get_correlations` (`optimization_algorithm.py:188-209`): contributions of all samples
for `j < i`; entries outside the strict lower triangle stay zero. -/
def correlation (samples : List Sample) (i j : Nat) : ℚ :=
  if j < i then
    samples.foldl (fun acc s => if pt s.x i = pt s.x j then acc + s.probability else acc - s.probability) 0
  else 0

/-- `_get_feasibility_status` (`optimization_algorithm.py:348-365`). -/
def feasibilityStatus (p : QP) (x : List ℚ) : Except Err ResStatus :=
  match p.isFeasible x with
  | .error e => .error e
  | .ok b => .ok (if b then .success else .infeasible)

/-- The `interpret` method of a converter that has converted a problem. -/
abbrev Interp := List ℚ → Except Err (List ℚ)

/-- `for converter in converters[::-1]: x = converter.interpret(x)` (`optimization_algorithm.py:464-465, 486-487`):
the list is already reversed. -/
def interpretRev : List Interp → List ℚ → Except Err (List ℚ)
  | [], x => .ok x
  | f :: fs, x =>
    match f x with
    | .error e => .error e
    | .ok y => interpretRev fs y

/-- Interpretation by a list of converters. -/
def interpretAll (convs : List Interp) (x : List ℚ) : Except Err (List ℚ) := interpretRev convs.reverse x

/-- `_interpret` (`optimization_algorithm.py:424-472`). -/
def interpretResult (p : QP) (convs : List Interp) (samples rawSamples : List Sample) (x : List ℚ) :
    Except Err Result :=
  match interpretAll convs x with
  | .error e => .error e
  | .ok x =>
    match p.objective.evaluate x with
    | .error e => .error e
    | .ok fval =>
      match feasibilityStatus p x with
      | .error e => .error e
      | .ok status => Result.mk? (some x) (some fval) p.vars status samples rawSamples

/-- The first loop of `_interpret_samples` (`optimization_algorithm.py:482-490`): the dictionary `prob`; `array` has
the same keys in the same order and maps every key to itself. -/
def mergeSamples (convs : List Interp) : List Sample → Assoc (List ℚ) ℚ → Except Err (Assoc (List ℚ) ℚ)
  | [], prob => .ok prob
  | s :: l, prob =>
    match interpretAll convs s.x with
    | .error e => .error e
    | .ok x => mergeSamples convs l (Assoc.set prob x ((Assoc.get? prob x).getD 0 + s.probability))

/-- The second loop (`optimization_algorithm.py:492-497`). -/
def evalSamples (p : QP) : Assoc (List ℚ) ℚ → Except Err (List Sample)
  | [] => .ok []
  | (x, probability) :: l =>
    match p.objective.evaluate x with
    | .error e => .error e
    | .ok fval =>
      match feasibilityStatus p x with
      | .error e => .error e
      | .ok status =>
        match evalSamples p l with
        | .error e => .error e
        | .ok r => .ok (⟨x, fval, probability, status⟩ :: r)

/-- `sorted` and `list.sort`: a stable sort by the comparison of the keys. -/
def sortedBy {α : Type} (le : α → α → Bool) (l : List α) : List α := l.insertionSort fun a b => le a b = true

/-- Comparison of the keys `(status.value, sense.value * fval)` (`optimization_algorithm.py:499-502`). -/
def sampleLE (sense : ObjSense) (a b : Sample) : Bool :=
  decide (a.status.value < b.status.value ∨
    (a.status.value = b.status.value ∧ sense.value * a.fval ≤ sense.value * b.fval))

/-- `_interpret_samples` (`optimization_algorithm.py:475-502`). -/
def interpretSamples (p : QP) (raw : List Sample) (convs : List Interp) : Except Err (List Sample) :=
  match mergeSamples convs raw [] with
  | .error e => .error e
  | .ok prob =>
    match evalSamples p prob with
    | .error e => .error e
    | .ok samples => .ok (sortedBy (sampleLE p.objective.sense) samples)

/-- A value of a `DictStateFn`: a real or a complex number (rational parts). -/
inductive Amp
  | real (v : ℚ)
  | complex (re im : ℚ)
  deriving DecidableEq, Repr

/-- The eigenstates accepted by `_eigenvector_to_solutions` (`optimization_algorithm.py:505, 538-541`). -/
inductive Eigenstate
  /-- a plain dictionary -/
  | counts (d : List (String × ℚ))
  /-- a `DictStateFn` -/
  | dictFn (d : List (String × Amp))
  /-- an array (or a `StateFn` converted to one) of complex amplitudes -/
  | vector (v : List (ℚ × ℚ))
  /-- anything else -/
  | other
  deriving DecidableEq, Repr

/-- `np.fromiter(list(bitstr), dtype=int)` (`optimization_algorithm.py:544`): every character must be a digit. -/
def digitsOf : List Char → Except Err (List ℚ)
  | [] => .ok []
  | c :: l =>
    if c.isDigit then
      match digitsOf l with
      | .error e => .error e
      | .ok r => .ok (((c.toNat - 48 : Nat) : ℚ) :: r)
    else .error .valueError

/-- `generate_solution` (`optimization_algorithm.py:543-551`). -/
def generateSolution (bitstr : List Char) (qubo : QP) (probability : ℚ) : Except Err Sample :=
  match digitsOf bitstr with
  | .error e => .error e
  | .ok x =>
    match qubo.objective.evaluate x with
    | .error e => .error e
    | .ok fval => .ok ⟨x, fval, probability, .success⟩

/-- The loop over a dictionary (`optimization_algorithm.py:557-561`). -/
def decodeCounts (qubo : QP) (minProb allCounts : ℚ) : List (String × ℚ) → Except Err (List Sample)
  | [] => .ok []
  | (bitstr, count) :: l =>
    if allCounts = 0 then .error .zeroDivision
    else if minProb ≤ count / allCounts then
      match generateSolution bitstr.toList qubo (count / allCounts) with
      | .error e => .error e
      | .ok s =>
        match decodeCounts qubo minProb allCounts l with
        | .error e => .error e
        | .ok r => .ok (s :: r)
    else decodeCounts qubo minProb allCounts l

/-- `"{:b}".format(i)`. -/
def formatB (i : Nat) : List Char :=
  if i = 0 then ['0'] else ((Nat.digits 2 i).map fun d => if d = 1 then '1' else '0').reverse

/-- `"{:b}".format(i).rjust(num_qubits, "0")[::-1]` (`optimization_algorithm.py:571`). -/
def vectorKey (numQubits i : Nat) : List Char :=
  (List.replicate (numQubits - (formatB i).length) '0' ++ formatB i).reverse

/-- `np.abs(a * a.conj())` (`optimization_algorithm.py:565`). -/
def ampProb (a : ℚ × ℚ) : ℚ := a.1 ^ 2 + a.2 ^ 2

/-- The loop over a state vector (`optimization_algorithm.py:567-572`), from basis state `i` on. -/
def decodeVector (qubo : QP) (minProb : ℚ) (numQubits : Nat) : List (ℚ × ℚ) → Nat → Except Err (List Sample)
  | [], _ => .ok []
  | a :: l, i =>
    if minProb ≤ ampProb a then
      match generateSolution (vectorKey numQubits i) qubo (ampProb a) with
      | .error e => .error e
      | .ok s =>
        match decodeVector qubo minProb numQubits l (i + 1) with
        | .error e => .error e
        | .ok r => .ok (s :: r)
    else decodeVector qubo minProb numQubits l (i + 1)

/-- `val ** 2` for all values (`optimization_algorithm.py:539`): the squares are complex numbers as soon as a value
is, and then the comparison with the threshold is a TypeError. -/
def squareAmps : List (String × Amp) → Except Err (List (String × ℚ))
  | [] => .ok []
  | (s, .real v) :: l =>
    match squareAmps l with
    | .error e => .error e
    | .ok r => .ok ((s, v ^ 2) :: r)
  | (_, .complex _ _) :: _ => .error .typeError

/-- `_eigenvector_to_solutions` (`optimization_algorithm.py:504-576`).  `int(np.log2(0))` is an OverflowError.
Simplification: a zero sum of numpy counts gives `nan` with a warning instead of the ZeroDivisionError of Python
numbers. -/
def eigenToSolutions (e : Eigenstate) (qubo : QP) (minProb : ℚ) : Except Err (List Sample) :=
  match e with
  | .counts d => decodeCounts qubo minProb (d.map Prod.snd).sum d
  | .dictFn d =>
    match squareAmps d with
    | .error e => .error e
    | .ok d => decodeCounts qubo minProb (d.map Prod.snd).sum d
  | .vector v =>
    if v = [] then .error .overflowError
    else decodeVector qubo minProb (Nat.log2 v.length) v 0
  | .other => .error .typeError

/-- A converter (`converters/quadratic_program_converter.py`): conversion of a problem, giving the new problem and the
`interpret` method in the state after this conversion. -/
abbrev Converter := QP → Except Err (QP × Interp)

/-- `_convert` (`optimization_algorithm.py:400-421`). -/
def convertAll : List Converter → QP → Except Err (QP × List Interp)
  | [], p => .ok (p, [])
  | c :: cs, p =>
    match c p with
    | .error e => .error e
    | .ok (q, f) =>
      match convertAll cs q with
      | .error e => .error e
      | .ok (r, fs) => .ok (r, f :: fs)

/-- `QuadraticProgramToQubo(penalty)` as a converter, the default (`optimization_algorithm.py:387-388`). -/
def quboConverter (penalty : Option ℚ) : Converter := fun p =>
  match p.toQubo penalty with
  | .error e => .error e
  | .ok st => .ok (st.dst, st.interpret)

/-- `_solve_internal` (`minimum_eigen_optimizer.py:199-257`) with an eigensolver `solver` that returns an eigenstate
or `None`.  The `else` branch for operators on zero qubits (227-231) is not reachable from `to_ising`: without
variables `I ^ 0` is the number 1 and the access `operator.num_qubits` is an AttributeError. -/
def solveInternal (solver : QubitOp → Option Eigenstate) (op : QubitOp) (converted original : QP)
    (convs : List Interp) : Except Err Result :=
  if op.numQubits = 0 then .error .attributeError
  else match solver op with
    | none => Result.mk? none none original.vars .failure [] []
    | some e =>
      match eigenToSolutions e converted (1 / 10 ^ 6) with
      | .error e => .error e
      | .ok raw =>
        let raw := sortedBy (fun a b =>
          decide (converted.objective.sense.value * a.fval ≤ converted.objective.sense.value * b.fval)) raw
        match raw with
        | [] => .error .indexError
        | s :: _ =>
          match interpretSamples original raw convs with
          | .error e => .error e
          | .ok samples => interpretResult original convs samples raw s.x

/-- `MinimumEigenOptimizer.solve` (`minimum_eigen_optimizer.py:173-197`, with `_verify_compatibility`,
`optimization_algorithm.py:333-345`). -/
def minEigenSolve (solver : QubitOp → Option Eigenstate) (convs : List Converter) (p : QP) : Except Err Result :=
  if (quboMsg p).length > 0 then .error .optimization
  else match convertAll convs p with
    | .error e => .error e
    | .ok (q, fs) =>
      match q.toIsing with
      | .error e => .error e
      | .ok (op, _) => solveInternal solver op q p fs

end Verif
