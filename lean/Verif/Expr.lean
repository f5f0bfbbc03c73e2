import Verif.Dict

/-!
# Variables, constraints senses, linear and quadratic expressions, the objective

Models `problems/variable.py`, `problems/constraint.py`, `problems/linear_expression.py`,
`problems/quadratic_expression.py`, `problems/quadratic_objective.py`, `infinity.py`.
-/

namespace Verif

/-- Exceptions raised by the modelled code.  `optimization` is `QiskitOptimizationError`
(`exceptions.py`), the others are the Python built-ins of that name; `valueError` includes scipy's
"dimension mismatch". -/
inductive Err
  | optimization | keyError | indexError | valueError | overflowError | typeError
  | notImplemented | attributeError | zeroDivision
  deriving DecidableEq, Repr

/-- `infinity.py`: `INFINITY = 1e20`. -/
def INFINITY : ℚ := 10 ^ 20

/-- `problems/variable.py:23-28` `VarType`. -/
inductive VarType
  | continuous | binary | integer
  deriving DecidableEq, Repr

/-- `problems/variable.py:31-67` `Variable`. -/
structure Variable where
  name : String
  lb : ℚ
  ub : ℚ
  vartype : VarType
  deriving DecidableEq, Repr

/-- `problems/variable.py:36-67`: the constructor rejects `lowerbound > upperbound`. -/
def Variable.mk? (name : String) (lb ub : ℚ) (t : VarType) : Except Err Variable :=
  if lb > ub then .error .optimization else .ok ⟨name, lb, ub, t⟩

/-- `problems/variable.py:87-99`: lower bound setter. -/
def Variable.setLb (v : Variable) (lb : ℚ) : Except Err Variable :=
  if lb > v.ub then .error .optimization else .ok { v with lb := lb }

/-- `problems/variable.py:110-122`: upper bound setter. -/
def Variable.setUb (v : Variable) (ub : ℚ) : Except Err Variable :=
  if v.lb > ub then .error .optimization else .ok { v with ub := ub }

/-- `problems/constraint.py:25-31` `ConstraintSense`. -/
inductive Sense
  | le | ge | eq
  deriving DecidableEq, Repr

/-- A sense given by the user: already a `ConstraintSense`, or a string. -/
inductive SenseInput
  | sense (s : Sense)
  | str (s : String)
  deriving DecidableEq, Repr

/-- `problems/constraint.py:33-69` `ConstraintSense.convert`.
Simplification: `str.upper` acts on ASCII letters only (no other character upper-cases to one of the
letters E, Q, L, G). -/
def Sense.convert : SenseInput → Except Err Sense
  | .sense s => .ok s
  | .str s =>
    let s := s.map Char.toUpper
    if s ∉ ["E", "L", "G", "EQ", "LE", "GE", "=", "==", "<=", "<", ">=", ">"] then
      .error .optimization
    else if s ∈ ["E", "EQ", "=", "=="] then .ok .eq
    else if s ∈ ["L", "LE", "<=", "<"] then .ok .le
    else .ok .ge

/-- `problems/quadratic_objective.py:26-30` `ObjSense`. -/
inductive ObjSense
  | minimize | maximize
  deriving DecidableEq, Repr

/-- The numeric value of an `ObjSense` member (`quadratic_objective.py:29-30`). -/
def ObjSense.value : ObjSense → ℚ
  | .minimize => 1
  | .maximize => -1

/-- A variable reference: index or name (`Union[int, str]`).
Simplification: negative indices (counted from the end by scipy) are left to `Verif/NegIndex.lean`. -/
inductive Key
  | idx (i : Nat)
  | name (s : String)
  deriving DecidableEq, Repr

/-- Reading a point given as a list: `x[i]`, zero beyond the end (length checks are separate). -/
def pt (x : List ℚ) : Nat → ℚ := fun i => x.getD i 0

/-- `problems/linear_expression.py` `LinearExpression`: a `1 x n` dok matrix.  The number of columns is
fixed when the expression is created. -/
structure LinExpr where
  n : Nat
  coeffs : Dict Nat
  deriving DecidableEq, Repr

/-- `problems/quadratic_expression.py` `QuadraticExpression`: an `n x n` dok matrix. -/
structure QuadExpr where
  n : Nat
  coeffs : Dict (Nat × Nat)
  deriving DecidableEq, Repr

/-- Ways of giving linear coefficients (`linear_expression.py:64-95`): dictionary, list / 1d array,
sparse matrix. -/
inductive LinInput
  | dict (l : List (Key × ℚ))
  | list (l : List ℚ)
  | sparse (e : LinExpr)

/-- Ways of giving quadratic coefficients (`quadratic_expression.py:83-119`): dictionary, list of lists /
2d array, sparse matrix. -/
inductive QuadInput
  | dict (l : List ((Key × Key) × ℚ))
  | matrix (rows : List (List ℚ))
  | sparse (e : QuadExpr)

/-- Index of a key in a program with name table `vi` and `n` columns: `variables_index[i]` for a name
(KeyError), then the range check of scipy's dok matrix (IndexError). -/
def resolve (vi : Assoc String Nat) (n : Nat) : Key → Except Err Nat
  | .idx i => if i < n then .ok i else .error .indexError
  | .name s =>
    match Assoc.get? vi s with
    | none => .error .keyError
    | some i => if i < n then .ok i else .error .indexError

/-- Dictionary branch of `LinearExpression._coeffs_to_dok_matrix` (`linear_expression.py:86-92`):
assignment entry by entry. -/
def linOfEntries (vi : Assoc String Nat) (n : Nat) :
    List (Key × ℚ) → Dict Nat → Except Err (Dict Nat)
  | [], acc => .ok acc
  | (k, v) :: l, acc =>
    match resolve vi n k with
    | .error e => .error e
    | .ok i => linOfEntries vi n l (Dict.dokSet acc i v)

/-- `dok_matrix([coefficients])` for a list (`linear_expression.py:78-83`): the non-zero entries. -/
def linOfList (l : List ℚ) : Dict Nat :=
  (l.zipIdx.map fun p => (p.2, p.1)).filter fun p => p.2 ≠ 0

/-- `LinearExpression.__init__` / `_coeffs_to_dok_matrix` (`linear_expression.py:27-44, 64-95`) for a
program with name table `vi` and `n` variables. -/
def LinExpr.ofInput (vi : Assoc String Nat) (n : Nat) : LinInput → Except Err LinExpr
  | .dict l =>
    match linOfEntries vi n l [] with
    | .error e => .error e
    | .ok d => .ok ⟨n, d⟩
  | .list l => .ok ⟨l.length, linOfList l⟩
  | .sparse e => .ok e

/-- Sum of two dok matrices (`scipy dok.__add__`): entries of the second are added one by one; an entry
that becomes zero stays stored. -/
def dokPlus {κ : Type} [DecidableEq κ] (a b : Dict κ) : Dict κ :=
  b.foldl (fun acc p => Dict.add acc p.1 p.2) a

/-- Difference computed in csr format and converted back (`quadratic_expression.py:125, 131`):
zero results are not stored. -/
def csrMinus {κ : Type} [DecidableEq κ] (a b : Dict κ) : Dict κ :=
  (b.foldl (fun acc p => Dict.add acc p.1 (-p.2)) a).filter fun p => p.2 ≠ 0

/-- Transpose of a dok matrix. -/
def transpose (d : Dict (Nat × Nat)) : Dict (Nat × Nat) := d.map fun p => ((p.1.2, p.1.1), p.2)

/-- `quadratic_expression.py:121-125` `_triangle_matrix`: `mat + tril(mat,-1).T - tril(mat,-1)`. -/
def triangle (mat : Dict (Nat × Nat)) : Dict (Nat × Nat) :=
  let lower := mat.filter fun p => p.1.2 < p.1.1
  csrMinus (dokPlus mat (transpose lower)) lower

/-- `quadratic_expression.py:127-131` `_symmetric_matrix`: `mat + upper.T - upper` with
`upper = triu(mat, 1) / 2`. -/
def symmetric (mat : Dict (Nat × Nat)) : Dict (Nat × Nat) :=
  let upper := (mat.filter fun p => p.1.1 < p.1.2).map fun p => (p.1, p.2 / 2)
  csrMinus (dokPlus mat (transpose upper)) upper

/-- Dictionary branch of `QuadraticExpression._coeffs_to_dok_matrix`
(`quadratic_expression.py:105-114`). -/
def quadOfEntries (vi : Assoc String Nat) (n : Nat) :
    List ((Key × Key) × ℚ) → Dict (Nat × Nat) → Except Err (Dict (Nat × Nat))
  | [], acc => .ok acc
  | ((k, k'), v) :: l, acc =>
    match resolve vi n k with
    | .error e => .error e
    | .ok i =>
      match resolve vi n k' with
      | .error e => .error e
      | .ok j => quadOfEntries vi n l (Dict.dokSet acc (i, j) v)

/-- `dok_matrix(rows)` for a list of lists (`quadratic_expression.py:103-104`). -/
def quadOfMatrix (rows : List (List ℚ)) : Dict (Nat × Nat) :=
  (rows.zipIdx.flatMap fun r => r.1.zipIdx.map fun p => ((r.2, p.2), p.1)).filter fun p => p.2 ≠ 0

/-- `QuadraticExpression.__init__` / `_coeffs_to_dok_matrix` (`quadratic_expression.py:28-51, 83-119`).
A list of lists that is not square is rejected (numpy / scipy ValueError when folding). -/
def QuadExpr.ofInput (vi : Assoc String Nat) (n : Nat) : QuadInput → Except Err QuadExpr
  | .dict l =>
    match quadOfEntries vi n l [] with
    | .error e => .error e
    | .ok d => .ok ⟨n, triangle d⟩
  | .matrix rows =>
    if rows.all (fun r => r.length == rows.length) then .ok ⟨rows.length, triangle (quadOfMatrix rows)⟩
    else .error .valueError
  | .sparse e => .ok ⟨e.n, triangle e.coeffs⟩

/-- Value of a linear expression at a point (mathematical part of `linear_expression.py:144-160`). -/
def LinExpr.val (e : LinExpr) (x : Nat → ℚ) : ℚ := Dict.sum e.coeffs x

/-- Value of a quadratic expression at a point (mathematical part of `quadratic_expression.py:196-211`). -/
def QuadExpr.val (e : QuadExpr) (x : Nat → ℚ) : ℚ := Dict.sum e.coeffs fun k => x k.1 * x k.2

/-- `linear_expression.py:144-160` `evaluate` for a list / array: matrix product `x @ coefficients.T`,
which requires equal lengths. -/
def LinExpr.evaluate (e : LinExpr) (x : List ℚ) : Except Err ℚ :=
  if x.length ≠ e.n then .error .valueError else .ok (e.val (pt x))

/-- `quadratic_expression.py:196-211` `evaluate` for a list / array: `x @ Q @ x`. -/
def QuadExpr.evaluate (e : QuadExpr) (x : List ℚ) : Except Err ℚ :=
  if x.length ≠ e.n then .error .valueError else .ok (e.val (pt x))

/-- `linear_expression.py:46-57` `__getitem__` (index form; range check as in scipy). -/
def LinExpr.getItem (e : LinExpr) (vi : Assoc String Nat) (k : Key) : Except Err ℚ :=
  match resolve vi e.n k with
  | .error er => .error er
  | .ok i => .ok (Dict.get e.coeffs i)

/-- `quadratic_expression.py:53-67` `__getitem__`. -/
def QuadExpr.getItem (e : QuadExpr) (vi : Assoc String Nat) (k k' : Key) : Except Err ℚ :=
  match resolve vi e.n k with
  | .error er => .error er
  | .ok i =>
    match resolve vi e.n k' with
    | .error er => .error er
    | .ok j => .ok (Dict.get e.coeffs (min i j, max i j))

/-- `quadratic_expression.py:69-81` `__setitem__`. -/
def QuadExpr.setItem (e : QuadExpr) (vi : Assoc String Nat) (k k' : Key) (v : ℚ) :
    Except Err QuadExpr :=
  match resolve vi e.n k with
  | .error er => .error er
  | .ok i =>
    match resolve vi e.n k' with
    | .error er => .error er
    | .ok j => .ok { e with coeffs := Dict.dokSet e.coeffs (min i j, max i j) v }

/-- `linear_expression.py:59-62` `__setitem__`. -/
def LinExpr.setItem (e : LinExpr) (vi : Assoc String Nat) (k : Key) (v : ℚ) : Except Err LinExpr :=
  match resolve vi e.n k with
  | .error er => .error er
  | .ok i => .ok { e with coeffs := Dict.dokSet e.coeffs i v }

/-- `linear_expression.py:118-124` `to_array`. -/
def LinExpr.toArray (e : LinExpr) : List ℚ := (List.range e.n).map fun i => Dict.get e.coeffs i

/-- `linear_expression.py:163-174` `evaluate_gradient`: the coefficient array, whatever `x`. -/
def LinExpr.gradient (e : LinExpr) (_x : List ℚ) : Except Err (List ℚ) := .ok e.toArray

/-- `quadratic_expression.py:213-228` `evaluate_gradient`: `(Q^T + Q) @ x`. Row `r` of the product is the
sum over the stored entries of `Q^T + Q` in that row. -/
def QuadExpr.gradient (e : QuadExpr) (x : List ℚ) : Except Err (List ℚ) :=
  if x.length ≠ e.n then .error .valueError
  else
    let s := dokPlus (transpose e.coeffs) e.coeffs
    .ok ((List.range e.n).map fun r => Dict.sum (s.filter fun p => p.1.1 = r) fun k => pt x k.2)

/-- `quadratic_expression.py:171-194` `to_dict(symmetric, use_name=False)`. -/
def QuadExpr.toDict (e : QuadExpr) (sym : Bool) : Dict (Nat × Nat) :=
  if sym then symmetric e.coeffs else e.coeffs

/-- `quadratic_expression.py:159-169` `to_array(symmetric)`. -/
def QuadExpr.toArray (e : QuadExpr) (sym : Bool) : List (List ℚ) :=
  (List.range e.n).map fun i => (List.range e.n).map fun j => Dict.get (e.toDict sym) (i, j)

/-- Name of the variable with index `k` (`quadratic_program.variables[k].name`); the index of a stored
coefficient is always a valid position. -/
def varName (vars : List Variable) (k : Nat) : String := (vars[k]?.map Variable.name).getD ""

/-- `linear_expression.py:126-142` `to_dict(use_name=True)`. -/
def LinExpr.toDictNames (e : LinExpr) (vars : List Variable) : Dict String :=
  e.coeffs.map fun p => (varName vars p.1, p.2)

/-- `quadratic_expression.py:171-194` `to_dict(use_name=True)`. -/
def QuadExpr.toDictNames (e : QuadExpr) (vars : List Variable) : Dict (String × String) :=
  e.coeffs.map fun p => ((varName vars p.1.1, varName vars p.1.2), p.2)

/-- `problems/quadratic_objective.py:33-70` `QuadraticObjective`. -/
structure Objective where
  constant : ℚ
  linear : LinExpr
  quadratic : QuadExpr
  sense : ObjSense
  deriving DecidableEq, Repr

/-- Value of the objective at a point (mathematical part of `quadratic_objective.py:157-166`). -/
def Objective.val (o : Objective) (x : Nat → ℚ) : ℚ :=
  o.constant + o.linear.val x + o.quadratic.val x

/-- `quadratic_objective.py:157-166` `evaluate`. -/
def Objective.evaluate (o : Objective) (x : List ℚ) : Except Err ℚ :=
  match o.linear.evaluate x with
  | .error e => .error e
  | .ok l =>
    match o.quadratic.evaluate x with
    | .error e => .error e
    | .ok q => .ok (o.constant + l + q)

/-- `quadratic_objective.py:168-177` `evaluate_gradient`: numpy sum of the two gradients. -/
def Objective.gradient (o : Objective) (x : List ℚ) : Except Err (List ℚ) :=
  match o.linear.gradient x with
  | .error e => .error e
  | .ok l =>
    match o.quadratic.gradient x with
    | .error e => .error e
    | .ok q => if l.length ≠ q.length then .error .valueError else .ok (List.zipWith (· + ·) l q)

end Verif
