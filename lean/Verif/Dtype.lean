import Verif.Admm

/-!
# The number type of stored coefficients

The coefficients of expressions are kept in scipy `dok_matrix` objects.  Such a matrix has a number type, and an assigned
value is converted to it.  The other files have rational numbers only; here the type is modelled, as far as the methods
that assign coefficients are concerned.
-/

namespace Verif

/-- The `dtype` of a stored matrix. -/
inductive NumType
  | int | float
  deriving DecidableEq, Repr

/-- `np.asarray(x, dtype=self.dtype)` in the assignment of an entry of a `dok_matrix` (scipy): for `int64` the digits after
the point are cut off.  Simplification: overflow is not modelled. -/
def NumType.cast : NumType → ℚ → ℚ
  | .float, v => v
  | .int, v => if 0 ≤ v then v.floor else v.ceil

/-- The type of the matrix made by `_coeffs_to_dok_matrix` (`linear_expression.py:78-95`): `dok_matrix(shape)` has
floating point numbers, `dok_matrix(list)` and `dok_matrix(matrix)` take the type of the argument.  `ints` tells that all
entries of the list, array or sparse matrix are Python or numpy integers. -/
def LinInput.dtype (ints : Bool) : LinInput → NumType
  | .dict _ => .float
  | .list _ => if ints then .int else .float
  | .sparse _ => if ints then .int else .float

/-- The same for `quadratic_expression.py:103-119`; the sums and differences of `_triangle_matrix` (121-125) keep the
type. -/
def QuadInput.dtype (ints : Bool) : QuadInput → NumType
  | .dict _ => .float
  | .matrix _ => if ints then .int else .float
  | .sparse _ => if ints then .int else .float

/-- A linear expression with the type of its matrix. -/
structure TypedLin where
  dtype : NumType
  expr : LinExpr
  deriving DecidableEq, Repr

/-- A quadratic expression with the type of its matrix. -/
structure TypedQuad where
  dtype : NumType
  expr : QuadExpr
  deriving DecidableEq, Repr

/-- `LinearExpression.__init__` (`linear_expression.py:27-44`). -/
def TypedLin.ofInput (vi : Assoc String Nat) (n : Nat) (ints : Bool) (l : LinInput) : Except Err TypedLin :=
  match LinExpr.ofInput vi n l with
  | .error e => .error e
  | .ok e => .ok ⟨l.dtype ints, e⟩

/-- `QuadraticExpression.__init__` (`quadratic_expression.py:28-51`). -/
def TypedQuad.ofInput (vi : Assoc String Nat) (n : Nat) (ints : Bool) (q : QuadInput) : Except Err TypedQuad :=
  match QuadExpr.ofInput vi n q with
  | .error e => .error e
  | .ok e => .ok ⟨q.dtype ints, e⟩

/-- `LinearExpression.__setitem__` (`linear_expression.py:59-62`). -/
def TypedLin.setItem (t : TypedLin) (vi : Assoc String Nat) (k : Key) (v : ℚ) : Except Err TypedLin :=
  match t.expr.setItem vi k (t.dtype.cast v) with
  | .error e => .error e
  | .ok e => .ok { t with expr := e }

/-- `QuadraticExpression.__setitem__` (`quadratic_expression.py:69-81`). -/
def TypedQuad.setItem (t : TypedQuad) (vi : Assoc String Nat) (k k' : Key) (v : ℚ) : Except Err TypedQuad :=
  match t.expr.setItem vi k k' (t.dtype.cast v) with
  | .error e => .error e
  | .ok e => .ok { t with expr := e }

/-- The loop of `_create_step2_problem` (`admm_optimizer.py:694-704`) for an objective whose linear and quadratic
coefficients have the types `tl` and `tq`; `copy.deepcopy` (691) keeps them. -/
def step2VarsTyped (tl tq : NumType) (s : AdmmState) : Nat → List Nat → QP → Except Err QP
  | _, [], op => .ok op
  | k, i :: is, op =>
    match op.vars[i]? with
    | none => .error .indexError
    | some v =>
      match relaxVar v with
      | .error e => .error e
      | .ok v =>
        match TypedQuad.setItem ⟨tq, op.objective.quadratic⟩ op.varsIndex (.idx i) (.idx i) (s.rho / 2) with
        | .error e => .error e
        | .ok q =>
          match TypedLin.setItem ⟨tl, op.objective.linear⟩ op.varsIndex (.idx i)
              (-1 * pt s.lam k - s.rho * (pt s.x0 k - pt s.y k)) with
          | .error e => .error e
          | .ok l =>
            step2VarsTyped tl tq s (k + 1) is
              { op with vars := op.vars.set i v,
                        objective := { op.objective with linear := l.expr, quadratic := q.expr } }

/-- `_create_step2_problem` (`admm_optimizer.py:684-710`) with the types of the coefficients of the objective. -/
def step2ProblemTyped (tl tq : NumType) (r : AdmmRep) (s : AdmmState) : Except Err QP :=
  match step2VarsTyped tl tq s 0 r.binIdx r.op with
  | .error e => .error e
  | .ok op => removeConstraints r.binEqs op

/-- The types of the coefficients of the objective of the program that the ADMM optimizer works with, for the input types
`tl` and `tq`: `IntegerToBinary.convert` (`integer_to_binary.py:72-104`) copies a program without integer variables and
otherwise makes a new objective from dictionaries; `_turn_to_minimization` (`admm_optimizer.py:436-441`) multiplies the
matrices by `-1`, an integer. -/
def admmTypes (p : QP) (tl tq : NumType) : NumType × NumType :=
  if p.vars.any (fun v => v.vartype = .integer) then (.float, .float) else (tl, tq)

end Verif
