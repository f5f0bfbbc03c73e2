import Verif.Program

/-!
# Ising Hamiltonians

Models `QuadraticProgram.to_ising` and `from_ising` (`problems/quadratic_program.py:1234-1450`).
Operators are lists of weighted Pauli strings; coefficients are real (rational).
-/

namespace Verif

/-- A Pauli string given by its `z` and `x` masks (qubit `i` at position `i`). -/
abbrev Pauli := List Bool × List Bool

/-- A sum of weighted Pauli strings (`PauliOp`, `SummedOp`, `PauliSumOp`). -/
structure QubitOp where
  numQubits : Nat
  terms : Dict Pauli
  deriving DecidableEq, Repr

/-- `z_p = zeros(n); z_p[i] = True` (`quadratic_program.py:1283-1285`). -/
def zMask1 (n i : Nat) : List Bool := (List.replicate n false).set i true

/-- `z_p = zeros(n); z_p[i] = True; z_p[j] = True` (`quadratic_program.py:1309-1311`). -/
def zMask2 (n i j : Nat) : List Bool := ((List.replicate n false).set i true).set j true

/-- The all-false mask. -/
def noMask (n : Nat) : List Bool := List.replicate n false

/-- Loop state of `to_ising`: the list of terms and the offset. -/
abbrev IsingState := Dict Pauli × ℚ

/-- Body of the loop over the linear part (`quadratic_program.py:1282-1288`).  An index outside the mask
raises IndexError. -/
def isingLinear (n : Nat) (sense : ℚ) : Dict Nat → IsingState → Except Err IsingState
  | [], st => .ok st
  | (i, coef) :: l, (terms, offset) =>
    if i < n then
      let weight := coef * sense / 2
      isingLinear n sense l (terms ++ [((zMask1 n i, noMask n), -weight)], offset + weight)
    else .error .indexError

/-- Merging `(i, j)` and `(j, i)` (`quadratic_program.py:1292-1297`). -/
def mergeCoeffs (d : Dict (Nat × Nat)) : Dict (Nat × Nat) :=
  d.foldl (fun acc p =>
    if p.1.2 < p.1.1 then Dict.add acc (p.1.2, p.1.1) p.2 else Dict.add acc p.1 p.2) []

/-- Body of the loop over the quadratic part (`quadratic_program.py:1300-1323`). -/
def isingQuadratic (n : Nat) (sense : ℚ) : Dict (Nat × Nat) → IsingState → Except Err IsingState
  | [], st => .ok st
  | ((i, j), coeff) :: l, (terms, offset) =>
    if i < n ∧ j < n then
      let weight := coeff * sense / 4
      let st1 : IsingState :=
        if i = j then (terms, offset + weight)
        else (terms ++ [((zMask2 n i j, noMask n), weight)], offset)
      let terms := st1.1 ++ [((zMask1 n i, noMask n), -weight)]
      let terms := terms ++ [((zMask1 n j, noMask n), -weight)]
      isingQuadratic n sense l (terms, st1.2 + weight)
    else .error .indexError

/-- `sum(PauliOp ...)` followed by `.reduce()` (`quadratic_program.py:1326-1331`, Qiskit Terra): equal
strings are merged; in a genuine sum zero coefficients are dropped, an all-zero sum becomes `0 * identity`.
Simplification: Terra drops coefficients below 1e-8 in absolute value, the model drops exact zeros only. -/
def reduceTerms (n : Nat) (terms : Dict Pauli) : Dict Pauli :=
  let merged := terms.foldl (fun acc p => Dict.add acc p.1 p.2) []
  if merged.length ≤ 1 then merged
  else
    let kept := merged.filter fun p => p.2 ≠ 0
    if kept = [] then [((noMask n, noMask n), 0)] else kept

/-- `quadratic_program.py:1234-1332` `to_ising`.  With no Pauli term at all the sum is the integer `0` and
`I ^ num_nodes` (the identity with coefficient 1) is returned. -/
def QP.toIsing (p : QP) : Except Err (QubitOp × ℚ) :=
  let n := p.numVars
  if n > (p.vars.filter fun v => v.vartype = .binary).length then .error .optimization
  else if p.lins ≠ [] ∨ p.quads ≠ [] then .error .optimization
  else
    let sense := p.objective.sense.value
    match isingLinear n sense p.objective.linear.coeffs ([], 0 + p.objective.constant * sense) with
    | .error e => .error e
    | .ok st =>
      match isingQuadratic n sense (mergeCoeffs p.objective.quadratic.coeffs) st with
      | .error e => .error e
      | .ok (terms, offset) =>
        if terms = [] then .ok (⟨n, [((noMask n, noMask n), 1)]⟩, offset)
        else .ok (⟨n, reduceTerms n terms⟩, offset)

/-- `[i for i, z in enumerate(lst) if z is True]` (`quadratic_program.py:1387, 1402`). -/
def trueIndices (l : List Bool) : List Nat := (l.zipIdx.filter fun p => p.1).map Prod.snd

/-- Filling the QUBO matrix (`quadratic_program.py:1380-1404`): assignment, hence later terms overwrite. -/
def fillMatrix : Dict Pauli → Dict (Nat × Nat) → Except Err (Dict (Nat × Nat))
  | [], m => .ok m
  | ((z, x), c) :: l, m =>
    match trueIndices z with
    | [i] => if trueIndices x ≠ [] then .error .optimization else fillMatrix l (Assoc.set m (i, i) c)
    | [i, j] => if trueIndices x ≠ [] then .error .optimization else fillMatrix l (Assoc.set m (i, j) c)
    | _ => .error .optimization

/-- The pairs `i < j` in the order of the double loop `quadratic_program.py:1412-1416`. -/
def upperPairs (n : Nat) : List (Nat × Nat) :=
  (List.range n).flatMap fun i => ((List.range n).filter fun j => i < j).map fun j => (i, j)

/-- State of the decoding loops: matrix, quadratic terms, linear terms, offset. -/
structure DecodeState where
  matrix : Dict (Nat × Nat)
  quad : Dict (Nat × Nat)
  lin : Dict Nat
  offset : ℚ

/-- Body of the double loop (`quadratic_program.py:1417-1428`). -/
def decodePair (st : DecodeState) (k : Nat × Nat) : DecodeState :=
  let weight := Dict.get st.matrix k
  let m := Dict.add st.matrix k (-weight)
  let m := Dict.add m (k.1, k.1) weight
  let m := Dict.add m (k.2, k.2) weight
  { st with matrix := m, quad := Assoc.set st.quad k (weight * 4), offset := st.offset - weight }

/-- Body of the loop over the diagonal (`quadratic_program.py:1432-1446`). -/
def decodeDiag (linear : Bool) (st : DecodeState) (i : Nat) : DecodeState :=
  let weight := Dict.get st.matrix (i, i)
  let coef := weight * 2
  let st := if linear then { st with lin := Assoc.set st.lin i (-coef) }
    else { st with quad := Assoc.set st.quad (i, i) (-coef) }
  { st with matrix := Dict.add st.matrix (i, i) (-weight), offset := st.offset + weight }

/-- Adding the binary variables `x_0, ..., x_{n-1}` (`quadratic_program.py:1364-1365`). -/
def addIsingVars : Nat → Nat → QP → Res Unit
  | 0, _, p => (.ok (), p)
  | m + 1, i, p =>
    match p.binaryVar (some ("x_" ++ toString i)) with
    | (.error e, p') => (.error e, p')
    | (.ok _, p') => addIsingVars m (i + 1) p'

/-- `quadratic_program.py:1334-1450` `from_ising` (on `self = p`).  Not modelled: the rejection of `ListOp`
inputs, conversion between operator classes. -/
def QP.fromIsing (p : QP) (op : QubitOp) (offset : ℚ) (linear : Bool) : Res Unit :=
  match addIsingVars op.numQubits 0 p with
  | (.error e, p') => (.error e, p')
  | (.ok _, p') =>
    match fillMatrix op.terms [] with
    | .error e => (.error e, p')
    | .ok m =>
      let st := (upperPairs op.numQubits).foldl decodePair ⟨m, [], [], offset⟩
      let st := (List.range op.numQubits).foldl (decodeDiag linear) st
      p'.minimize st.offset (.dict (st.lin.map fun q => (.idx q.1, q.2)))
        (.dict (st.quad.map fun q => ((.idx q.1.1, .idx q.1.2), q.2)))

end Verif
