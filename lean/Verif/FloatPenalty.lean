import Verif.FloatEval
import Verif.Penalty

/-!
# The penalty conversion with floating point numbers

`Verif/Penalty.lean` with a rounding `fl` after every operation, in the order in which Python evaluates the products.
-/

namespace Verif

/-- `_auto_define_penalty` (`linear_equality_to_penalty.py:129-164`) with rounding; `fsum` rounds the exact sum once (Python),
and absolute values are exact. -/
def autoPenaltyFl (fl : ℚ → ℚ) (src : QP) : ℚ :=
  if anyFloat (src.lins.flatMap fun c => c.rhs :: c.linear.coeffs.values) then 100000
  else fl ((1 : ℚ) :: (src.objective.linear.coeffs.values.map abs ++
    (src.objective.quadratic.toDict false).values.map abs)).sum

/-- `linear[j] = linear.get(j, 0.0) + sense * penalty * -2 * coef * constant` (`linear_equality_to_penalty.py:99-102`) with
rounding; `f` is the rounded `sense * penalty`. -/
def penLinearFl (fl : ℚ → ℚ) (f : ℚ) (rhs : ℚ) : Dict Nat → Dict Nat → Dict Nat
  | [], lin => lin
  | (j, coef) :: row, lin => penLinearFl fl f rhs row (Dict.addFl fl lin j (fl (fl (fl (f * -2) * coef) * rhs)))

/-- `quadratic[tup] = quadratic.get(tup, 0.0) + sense * penalty * coef_1 * coef_2` (`linear_equality_to_penalty.py:106-114`)
with rounding. -/
def penQuadRowFl (fl : ℚ → ℚ) (f : ℚ) (j : Nat) (c1 : ℚ) : Dict Nat → Dict (Nat × Nat) → Dict (Nat × Nat)
  | [], quad => quad
  | (k, c2) :: row, quad => penQuadRowFl fl f j c1 row (Dict.addFl fl quad (j, k) (fl (fl (f * c1) * c2)))

/-- The outer loop of the quadratic part (`linear_equality_to_penalty.py:105-114`) with rounding. -/
def penQuadFl (fl : ℚ → ℚ) (f : ℚ) (all : Dict Nat) : Dict Nat → Dict (Nat × Nat) → Dict (Nat × Nat)
  | [], quad => quad
  | (j, c1) :: row, quad => penQuadFl fl f all row (penQuadRowFl fl f j c1 all quad)

/-- The loop over the linear constraints (`linear_equality_to_penalty.py:84-114`) with rounding. -/
def penLoopFl (fl : ℚ → ℚ) (f : ℚ) : List LinCst → PenTerms → Except Err PenTerms
  | [], t => .ok t
  | c :: cs, t =>
    if c.sense ≠ .eq then .error .optimization
    else
      let row := c.linear.coeffs
      penLoopFl fl f cs ⟨fl (t.offset + fl (f * fl (c.rhs ^ 2))), penLinearFl fl f c.rhs row t.linear,
        penQuadFl fl f row row t.quadratic⟩

/-- `_triangle_matrix` (`quadratic_expression.py:121-125`) with rounding: `mat + tril(mat,-1).T - tril(mat,-1)`. -/
def triangleFl (fl : ℚ → ℚ) (mat : Dict (Nat × Nat)) : Dict (Nat × Nat) :=
  let lower := mat.filter fun p => p.1.2 < p.1.1
  let sum := (transpose lower).foldl (fun acc p => Dict.addFl fl acc p.1 p.2) mat
  (lower.foldl (fun acc p => Dict.addFl fl acc p.1 (-p.2)) sum).filter fun p => p.2 ≠ 0

/-- `minimize` / `maximize` (`quadratic_program.py:822-870`) for dictionaries with rounding: the coefficients are stored as
given, then the quadratic ones are folded to a triangle. -/
def QP.setObjectiveFl (fl : ℚ → ℚ) (p : QP) (sense : ObjSense) (constant : ℚ)
    (linear : List (Key × ℚ)) (quadratic : List ((Key × Key) × ℚ)) : Res Unit :=
  match LinExpr.ofInput p.varsIndex p.numVars (.dict linear) with
  | .error e => (.error e, p)
  | .ok l =>
    match quadOfEntries p.varsIndex p.numVars quadratic [] with
    | .error e => (.error e, p)
    | .ok d => (.ok (), { p with objective := ⟨constant, l, ⟨p.numVars, triangleFl fl d⟩, sense⟩ })

/-- `convert` (`linear_equality_to_penalty.py:46-127`) with rounding. -/
def QP.toPenaltyFl (fl : ℚ → ℚ) (penalty : Option ℚ) (src : QP) : Except Err (QP × ℚ) :=
  let pen := penalty.getD (autoPenaltyFl fl src)
  match copyAllVars src.vars (QP.empty src.name) with
  | .error e => .error e
  | .ok dst =>
    match penLoopFl fl (fl (src.objective.sense.value * pen)) src.lins
      ⟨src.objective.constant, src.objective.linear.coeffs, src.objective.quadratic.toDict false⟩ with
    | .error e => .error e
    | .ok t =>
      match dst.setObjectiveFl fl src.objective.sense t.offset (t.linear.map fun q => (.idx q.1, q.2))
        (t.quadratic.map fun q => ((.idx q.1.1, .idx q.1.2), q.2)) with
      | (.error e, _) => .error e
      | (.ok _, dst) => .ok (dst, pen)

end Verif
