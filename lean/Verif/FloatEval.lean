import Verif.FloatLog
import Verif.Ising
import Verif.Spec

/-!
# Evaluation with floating point numbers

The rest of the model computes with rational numbers.  This file models the evaluation of expressions and constraints
(`problems/linear_expression.py`, `problems/quadratic_expression.py`, `problems/quadratic_objective.py`,
`problems/quadratic_constraint.py`), the check of feasibility and `to_ising` (`problems/quadratic_program.py`) with a
rounding after every operation.  The rounding is an argument `fl`.
-/

namespace Verif

/-- `fl` rounds to the nearest double precision number, in ties to any of the two.  Subnormal numbers and overflow are not
modelled, as in `NearestDouble`. -/
def IsRounding (fl : ℚ → ℚ) : Prop := ∀ q : ℚ, NearestDouble (q : ℝ) (fl q : ℝ)

/-- `s` is a possible result of adding the numbers of a list with rounding: in any order and with any bracketing, since
numpy and scipy do not fix them.  (A sum that starts with a zero is the same: adding a double to zero is exact.) -/
inductive FlSum (fl : ℚ → ℚ) : List ℚ → ℚ → Prop
  | nil : FlSum fl [] 0
  | single (a : ℚ) : FlSum fl [a] a
  | add {l m n : List ℚ} {a b : ℚ} : FlSum fl l a → FlSum fl m b → l ≠ [] → m ≠ [] → n.Perm (l ++ m) →
      FlSum fl n (fl (a + b))

/-- `x @ coefficients.T` (`linear_expression.py:144-160`) with rounding. -/
def LinExpr.FlVal (fl : ℚ → ℚ) (e : LinExpr) (x : Nat → ℚ) (r : ℚ) : Prop :=
  FlSum fl (e.coeffs.map fun p => fl (p.2 * x p.1)) r

/-- `x @ Q @ x` (`quadratic_expression.py:196-211`) with rounding: first the row vector `x @ Q`, whose entry `j` adds the
products with column `j`, then its product with `x`. -/
def QuadExpr.FlVal (fl : ℚ → ℚ) (e : QuadExpr) (x : Nat → ℚ) (r : ℚ) : Prop :=
  ∃ y : Nat → ℚ, (∀ j < e.n, FlSum fl ((e.coeffs.filter fun p => p.1.2 = j).map fun p => fl (x p.1.1 * p.2)) (y j)) ∧
    FlSum fl ((List.range e.n).map fun j => fl (y j * x j)) r

/-- `constant + linear + quadratic` (`quadratic_objective.py:157-166`) with rounding. -/
def Objective.FlVal (fl : ℚ → ℚ) (o : Objective) (x : Nat → ℚ) (r : ℚ) : Prop :=
  ∃ l q, o.linear.FlVal fl x l ∧ o.quadratic.FlVal fl x q ∧ r = fl (fl (o.constant + l) + q)

/-- `constraint.evaluate(x)` (`linear_constraint.py:72-81`, `quadratic_constraint.py:111-120`) with rounding. -/
def Cst.FlVal (fl : ℚ → ℚ) : Cst → (Nat → ℚ) → ℚ → Prop
  | .lin c, x, r => c.linear.FlVal fl x r
  | .quad c, x, r => ∃ l q, c.linear.FlVal fl x l ∧ c.quadratic.FlVal fl x q ∧ r = fl (l + q)

/-- The comparison of the left-hand side with the right-hand side (`quadratic_program.py:1485-1490`); `math.isclose` (Python)
compares `abs(b - a)` with `1e-9 * abs(b)` and `1e-9 * abs(a)`, all rounded. -/
def Sense.flHolds (fl : ℚ → ℚ) : Sense → ℚ → ℚ → Prop
  | .le, a, b => a ≤ b
  | .ge, a, b => b ≤ a
  | .eq, a, b => a = b ∨ |fl (b - a)| ≤ |fl (fl (1 / 10 ^ 9) * b)| ∨ |fl (b - a)| ≤ |fl (fl (1 / 10 ^ 9) * a)|

/-- `is_feasible(x)` (`quadratic_program.py:1452-1509`) with rounding: `b` is a possible verdict for a point of the right
length. -/
def QP.FlVerdict (fl : ℚ → ℚ) (p : QP) (x : Nat → ℚ) (b : Bool) : Prop :=
  ∃ r : Cst → ℚ, (∀ c ∈ p.allCsts, c.FlVal fl x (r c)) ∧
    (b = true ↔ p.InBounds x ∧ ∀ c ∈ p.allCsts, c.sense.flHolds fl (r c) c.rhs)

/-- `d[k] = d.get(k, 0.0) + v` with rounding. -/
def Dict.addFl {κ : Type} [DecidableEq κ] (fl : ℚ → ℚ) (d : Dict κ) (k : κ) (v : ℚ) : Dict κ :=
  Assoc.set d k (fl (Dict.get d k + v))

/-- `isingLinear` with rounding (`quadratic_program.py:1282-1288`). -/
def isingLinearFl (fl : ℚ → ℚ) (n : Nat) (sense : ℚ) : Dict Nat → IsingState → Except Err IsingState
  | [], st => .ok st
  | (i, coef) :: l, (terms, offset) =>
    if i < n then
      let weight := fl (fl (coef * sense) / 2)
      isingLinearFl fl n sense l (terms ++ [((zMask1 n i, noMask n), -weight)], fl (offset + weight))
    else .error .indexError

/-- `mergeCoeffs` with rounding (`quadratic_program.py:1292-1297`). -/
def mergeCoeffsFl (fl : ℚ → ℚ) (d : Dict (Nat × Nat)) : Dict (Nat × Nat) :=
  d.foldl (fun acc p =>
    if p.1.2 < p.1.1 then Dict.addFl fl acc (p.1.2, p.1.1) p.2 else Dict.addFl fl acc p.1 p.2) []

/-- `isingQuadratic` with rounding (`quadratic_program.py:1300-1323`). -/
def isingQuadraticFl (fl : ℚ → ℚ) (n : Nat) (sense : ℚ) : Dict (Nat × Nat) → IsingState → Except Err IsingState
  | [], st => .ok st
  | ((i, j), coeff) :: l, (terms, offset) =>
    if i < n ∧ j < n then
      let weight := fl (fl (coeff * sense) / 4)
      let st1 : IsingState :=
        if i = j then (terms, fl (offset + weight))
        else (terms ++ [((zMask2 n i j, noMask n), weight)], offset)
      let terms := st1.1 ++ [((zMask1 n i, noMask n), -weight)]
      let terms := terms ++ [((zMask1 n j, noMask n), -weight)]
      isingQuadraticFl fl n sense l (terms, fl (st1.2 + weight))
    else .error .indexError

/-- `reduceTerms` with rounding (`quadratic_program.py:1326-1331`, Qiskit Terra): the coefficients of equal strings are added
in the order of the terms. -/
def reduceTermsFl (fl : ℚ → ℚ) (n : Nat) (terms : Dict Pauli) : Dict Pauli :=
  let merged := terms.foldl (fun acc p => Dict.addFl fl acc p.1 p.2) []
  if merged.length ≤ 1 then merged
  else
    let kept := merged.filter fun p => p.2 ≠ 0
    if kept = [] then [((noMask n, noMask n), 0)] else kept

/-- `to_ising` with rounding (`quadratic_program.py:1234-1332`). -/
def QP.toIsingFl (fl : ℚ → ℚ) (p : QP) : Except Err (QubitOp × ℚ) :=
  let n := p.numVars
  if n > (p.vars.filter fun v => v.vartype = .binary).length then .error .optimization
  else if p.lins ≠ [] ∨ p.quads ≠ [] then .error .optimization
  else
    let sense := p.objective.sense.value
    match isingLinearFl fl n sense p.objective.linear.coeffs ([], fl (0 + fl (p.objective.constant * sense))) with
    | .error e => .error e
    | .ok st =>
      match isingQuadraticFl fl n sense (mergeCoeffsFl fl p.objective.quadratic.coeffs) st with
      | .error e => .error e
      | .ok (terms, offset) =>
        if terms = [] then .ok (⟨n, [((noMask n, noMask n), 1)]⟩, offset)
        else .ok (⟨n, reduceTermsFl fl n terms⟩, offset)

end Verif
