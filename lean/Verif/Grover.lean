import Verif.Result

/-!
# The Grover optimizer

Models `algorithms/grover_optimizer.py`: sign flip, search loop, decoding of the registers, samples.  The circuits and
the backend are an argument that delivers the outcome of every measurement.
-/

namespace Verif

/-- `for i, val in linear.to_dict().items(): linear[i] = -val` (`grover_optimizer.py:183-184`). -/
def negLinear (e : LinExpr) : LinExpr :=
  ⟨e.n, List.foldl (fun d p => Dict.dokSet d p.1 (-p.2)) e.coeffs e.coeffs⟩

/-- `for (i, j), val in quadratic.to_dict().items(): quadratic[i, j] = -val` (`grover_optimizer.py:185-186`). -/
def negQuadratic (e : QuadExpr) : QuadExpr :=
  ⟨e.n, List.foldl (fun d p => Dict.dokSet d (min p.1.1 p.1.2, max p.1.1 p.1.2) (-p.2)) e.coeffs (e.toDict false)⟩

/-- Conversion to a minimization problem (`grover_optimizer.py:179-186`). -/
def groverObjective (o : Objective) : Objective :=
  match o.sense with
  | .maximize => ⟨-o.constant, negLinear o.linear, negQuadratic o.quadratic, .minimize⟩
  | .minimize => o

/-- `int(s, 2)` for a string of binary digits; other strings are a ValueError (Python also accepts signs, blanks and
underscores, which do not occur in outcomes). -/
def intBase2 (s : List Char) : Except Err Nat :=
  if s = [] then .error .valueError
  else if s.all fun c => c = '0' || c = '1' then
    .ok (s.foldl (fun acc c => 2 * acc + if c = '1' then 1 else 0) 0)
  else .error .valueError

/-- `_bin_to_int` (`grover_optimizer.py:354-361`). -/
def binToInt (v : List Char) (numBits : Nat) : Except Err Int :=
  match intBase2 v with
  | .error e => .error e
  | .ok k => if v.head? = some '1' then .ok (k - 2 ^ numBits) else .ok k

/-- What `_get_probs` stores in `_circuit_results` (`grover_optimizer.py:332-351`): a state vector, or the counts of the
backend (keys in Qiskit order) with the number of shots. -/
inductive Circuit
  | state (v : List (ℚ × ℚ))
  | counts (shots : ℚ) (d : List (String × ℚ))

/-- The result of `_measure` (`grover_optimizer.py:323-330`): the outcome, qubit 0 first, and the circuit results. -/
structure Outcome where
  bits : List Char
  circuit : Circuit

/-- Diagonal of the partial trace over all qubits from `nKey` on (`grover_optimizer.py:260-262`): the probability of
every value of the key register. -/
def keyMarginal (nKey : Nat) (v : List (ℚ × ℚ)) : List ℚ :=
  (List.range (2 ^ nKey)).map fun j => ((v.zipIdx.filter fun q => q.2 % 2 ^ nKey = j).map fun q => ampProb q.1).sum

/-- The state vector branch of `_eigenvector_to_solutions` for the vector of the square roots of the probabilities
(`grover_optimizer.py:262, 268-270`, `optimization_algorithm.py:563-574`): the square roots are squared again.  The list
has `2 ^ numQubits` entries. -/
def decodeProbs (qubo : QP) (minProb : ℚ) (numQubits : Nat) : List ℚ → Nat → Except Err (List Sample)
  | [], _ => .ok []
  | pr :: l, i =>
    if minProb ≤ pr then
      match generateSolution (vectorKey numQubits i) qubo pr with
      | .error e => .error e
      | .ok s =>
        match decodeProbs qubo minProb numQubits l (i + 1) with
        | .error e => .error e
        | .ok r => .ok (s :: r)
    else decodeProbs qubo minProb numQubits l (i + 1)

/-- The raw samples of an improvement (`grover_optimizer.py:258-271`, with `_circuit_results` of `_get_probs`,
`grover_optimizer.py:347-350`).  `sqrt` is `np.sqrt`. -/
def groverRaw (sqrt : ℚ → ℚ) (qubo : QP) (nKey : Nat) : Circuit → Except Err (List Sample)
  | .state v => decodeProbs qubo (1 / 10 ^ 6) nKey (keyMarginal nKey v) 0
  | .counts shots d =>
    let results : Assoc (List Char) ℚ := Assoc.ofEntries (d.map fun q => (q.1.toList.reverse, sqrt (q.2 / shots)))
    let truncated : Assoc (List Char) ℚ := Assoc.ofEntries (results.map fun q => (q.1.take nKey, q.2))
    eigenToSolutions (.counts (truncated.map fun q => (String.ofList q.1, q.2))) qubo (1 / 10 ^ 6)

/-- The variables of `solve` that change in the loops (`grover_optimizer.py:189-213, 224-229`).  `optValue = none`
stands for `math.inf`. -/
structure GroverState where
  optKey : Nat
  optValue : Option ℚ
  threshold : ℚ
  keysMeasured : List Nat
  rotations : Nat
  iteration : Nat
  loops : Nat
  raw : List Sample
  samples : List Sample

/-- `int_v < optimum_value`. -/
def improves (v : ℚ) : Option ℚ → Bool
  | none => true
  | some w => decide (v < w)

/-- The two nested loops (`grover_optimizer.py:215-295`) as one: an improvement starts a new round of the outer loop
(`loops` is reset).  `obj` is the objective of `problem_`, `qubo` is `problem_init`.
`rot` is the number of rotations drawn at random in every iteration, whatever `m` is.  `measure` gets the number of the
iteration and the objective with the shifted constant.  `problem` is the caller's program as it is for a threshold (see
`callersGrover`).  The result is `none` when the fuel runs out before the loops are left.  Operation counts are not
modelled. -/
def groverLoop (measure : Nat → Objective → Outcome) (rot : Nat → Nat) (sqrt : ℚ → ℚ) (obj : Objective)
    (problem : ℚ → QP) (qubo : QP) (convs : List Interp) (nKey nValue : Nat) (nIterations maxRotations : Nat) :
    Nat → GroverState → Option (Except Err GroverState)
  | 0, _ => none
  | fuel + 1, s =>
    let loops := s.loops + 1
    let rotations := s.rotations + rot s.iteration
    let out := measure s.iteration { obj with constant := obj.constant - s.threshold }
    match intBase2 (out.bits.take nKey) with
    | .error e => some (.error e)
    | .ok k =>
      match binToInt ((out.bits.drop nKey).take nValue) nValue with
      | .error e => some (.error e)
      | .ok z =>
        let intV : ℚ := z + s.threshold
        if improves intV s.optValue then
          match groverRaw sqrt qubo nKey out.circuit with
          | .error e => some (.error e)
          | .ok raw =>
            let raw := sortedBy (fun a b => decide (obj.sense.value * a.fval ≤ obj.sense.value * b.fval)) raw
            match interpretSamples (problem s.threshold) raw convs with
            | .error e => some (.error e)
            | .ok samples =>
              groverLoop measure rot sqrt obj problem qubo convs nKey nValue nIterations maxRotations fuel
                ⟨k, some intV, intV, s.keysMeasured, rotations, s.iteration + 1, 0, raw, samples⟩
        else
          let keys := if k ∈ s.keysMeasured then s.keysMeasured else s.keysMeasured ++ [k]
          if loops ≥ nIterations ∨ keys.length = 2 ^ nKey ∨ rotations ≥ maxRotations then
            some (.ok { s with keysMeasured := keys, rotations := rotations, iteration := s.iteration + 1,
                               loops := loops })
          else
            groverLoop measure rot sqrt obj problem qubo convs nKey nValue nIterations maxRotations fuel
              { s with keysMeasured := keys, rotations := rotations, iteration := s.iteration + 1, loops := loops }

/-- The variables before the loops (`grover_optimizer.py:189-213`). -/
def groverInit : GroverState := ⟨0, none, 0, [], 0, 0, 0, [], []⟩

/-- `int(np.ceil(100 * np.pi / 4))` (`grover_optimizer.py:207`). -/
def groverMaxRotations : Nat := 79

/-- `np.array([1 if s == "1" else 0 for s in ("{0:%sb}" % n_key).format(optimum_key)])`
(`grover_optimizer.py:301`): right aligned, padded with blanks. -/
def keyToPoint (nKey k : Nat) : List ℚ :=
  (List.replicate (nKey - (formatB k).length) ' ' ++ formatB k).map fun c => if c = '1' then 1 else 0

/-- What `solve` returns: the result, with the point found for the converted problem, its value
(`intermediate_fval`), the threshold and the number of measurements (the length of `operation_counts`); also the
caller's program after the call. -/
structure GroverResult where
  result : Result
  optX : List ℚ
  fval : ℚ
  threshold : ℚ
  iterations : Nat
  callers : QP

/-- The caller's program at the time when the threshold has the given value.  Without converters `problem_` is the
caller's object (`optimization_algorithm.py:413-421`): its objective is turned into a minimization
(`grover_optimizer.py:179-186`) and its constant is overwritten in every round (`grover_optimizer.py:220`). -/
def callersGrover (converters : List Converter) (obj : Objective) (p : QP) (threshold : ℚ) : QP :=
  if converters.length = 0 then { p with objective := { obj with constant := obj.constant - threshold } } else p

/-- The end of `solve` (`grover_optimizer.py:297-321`); `qubo` is the converted problem. -/
def groverFinish (obj : Objective) (problem : ℚ → QP) (qubo : QP) (convs : List Interp) (nKey : Nat) (s : GroverState) :
    Except Err GroverResult :=
  let key := if (match s.optValue with | none => true | some v => decide (0 ≤ v)) = true ∧ obj.constant = 0 then 0
    else s.optKey
  let x := keyToPoint nKey key
  match qubo.objective.evaluate x with
  | .error e => .error e
  | .ok fval =>
    match interpretResult (problem s.threshold) convs s.samples s.raw x with
    | .error e => .error e
    | .ok r => .ok ⟨r, x, fval, s.threshold, s.iteration, problem s.threshold⟩

/-- `GroverOptimizer.solve` (`grover_optimizer.py:154-321`).  That a missing quantum instance is rejected with an
AttributeError (`:170-171`) is not modelled: `measure` is the instance. -/
def groverSolve (measure : Nat → Objective → Outcome) (rot : Nat → Nat) (sqrt : ℚ → ℚ) (converters : List Converter)
    (nValue nIterations : Nat) (p : QP) (fuel : Nat) : Option (Except Err GroverResult) :=
  if (quboMsg p).length > 0 then some (.error .optimization)
  else match convertAll converters p with
    | .error e => some (.error e)
    | .ok (qubo, convs) =>
      let obj := groverObjective qubo.objective
      let nKey := obj.linear.n
      let callers := callersGrover converters obj p
      match groverLoop measure rot sqrt obj callers qubo convs nKey nValue nIterations groverMaxRotations fuel
          groverInit with
      | none => none
      | some (.error e) => some (.error e)
      | some (.ok s) => some (groverFinish obj callers qubo convs nKey s)

end Verif
