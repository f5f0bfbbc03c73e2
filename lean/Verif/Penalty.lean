import Verif.IneqToEq

/-!
# Penalising linear equality constraints

Models `converters/linear_equality_to_penalty.py` (`LinearEqualityToPenalty`).
-/

namespace Verif

/-- `_auto_define_penalty` (`linear_equality_to_penalty.py:129-164`); `fsum` is exact for rationals. -/
def autoPenalty (src : QP) : ℚ :=
  if anyFloat (src.lins.flatMap fun c => c.rhs :: c.linear.coeffs.values) then 100000
  else ((1 : ℚ) :: (src.objective.linear.coeffs.values.map abs ++
    (src.objective.quadratic.toDict false).values.map abs)).sum

/-- The terms of the objective under construction: offset, linear and quadratic dictionary. -/
structure PenTerms where
  offset : ℚ
  linear : Dict Nat
  quadratic : Dict (Nat × Nat)

/-- The linear part of one penalty term (`linear_equality_to_penalty.py:99-102`). -/
def penLinear (f : ℚ) (rhs : ℚ) : Dict Nat → Dict Nat → Dict Nat
  | [], lin => lin
  | (j, coef) :: row, lin => penLinear f rhs row (Dict.add lin j (f * -2 * coef * rhs))

/-- The inner loop of the quadratic part (`linear_equality_to_penalty.py:106-114`). -/
def penQuadRow (f : ℚ) (j : Nat) (c1 : ℚ) : Dict Nat → Dict (Nat × Nat) → Dict (Nat × Nat)
  | [], quad => quad
  | (k, c2) :: row, quad => penQuadRow f j c1 row (Dict.add quad (j, k) (f * c1 * c2))

/-- The outer loop of the quadratic part (`linear_equality_to_penalty.py:105-114`). -/
def penQuad (f : ℚ) (all : Dict Nat) : Dict Nat → Dict (Nat × Nat) → Dict (Nat × Nat)
  | [], quad => quad
  | (j, c1) :: row, quad => penQuad f all row (penQuadRow f j c1 all quad)

/-- The loop over the linear constraints (`linear_equality_to_penalty.py:84-114`); `f` is `sense * penalty`. -/
def penLoop (f : ℚ) : List LinCst → PenTerms → Except Err PenTerms
  | [], t => .ok t
  | c :: cs, t =>
    if c.sense ≠ .eq then .error .optimization
    else
      let row := c.linear.coeffs
      penLoop f cs ⟨t.offset + f * c.rhs ^ 2, penLinear f c.rhs row t.linear, penQuad f row row t.quadratic⟩

/-- `convert` (`linear_equality_to_penalty.py:46-127`) with the penalty given to the converter (`none`: automatic);
the result together with the penalty used (`self._penalty`).  The quadratic constraints of the source are not looked
at, neither here nor in the code. -/
def QP.toPenalty (penalty : Option ℚ) (src : QP) : Except Err (QP × ℚ) :=
  let pen := penalty.getD (autoPenalty src)
  match copyAllVars src.vars (QP.empty src.name) with
  | .error e => .error e
  | .ok dst =>
    match penLoop (src.objective.sense.value * pen) src.lins
      ⟨src.objective.constant, src.objective.linear.coeffs, src.objective.quadratic.toDict false⟩ with
    | .error e => .error e
    | .ok t =>
      match dst.setObjective src.objective.sense t.offset (linIdx t.linear) (quadIdx t.quadratic) with
      | (.error e, _) => .error e
      | (.ok _, dst) => .ok (dst, pen)

/-- `interpret` (`linear_equality_to_penalty.py:166-184`). -/
def penInterpret (src : QP) (x : List ℚ) : Except Err (List ℚ) :=
  if x.length ≠ src.numVars then .error .optimization else .ok x

end Verif
