import Verif.Program

/-!
# Negative indices

Python programs may address variables from the end.  The rest of the model uses `Key`, whose indices are natural numbers;
this file models the access functions of the expressions for arbitrary integers.
-/

namespace Verif

/-- A variable reference with an arbitrary integer (`Union[int, str]`). -/
inductive PyKey
  | idx (i : Int)
  | name (s : String)
  deriving DecidableEq, Repr

/-- `if isinstance(i, str): i = self.quadratic_program.variables_index[i]` (`linear_expression.py:55-56`,
`quadratic_expression.py:63-66`). -/
def PyKey.raw (vi : Assoc String Nat) : PyKey → Except Err Int
  | .idx i => .ok i
  | .name s => match Assoc.get? vi s with | none => .error .keyError | some i => .ok i

/-- The treatment of an index by a dok matrix with `n` rows or columns: numbers below `-n` or from `n` on are rejected,
negative ones are counted from the end. -/
def scipyIndex (n : Nat) (i : Int) : Except Err Nat :=
  if i < -n ∨ (n : Int) ≤ i then .error .indexError
  else .ok (if i < 0 then i + n else i).toNat

/-- `LinearExpression.__getitem__` (`linear_expression.py:46-57`). -/
def LinExpr.getItemPy (e : LinExpr) (vi : Assoc String Nat) (k : PyKey) : Except Err ℚ :=
  match k.raw vi with
  | .error er => .error er
  | .ok a =>
    match scipyIndex e.n a with
    | .error er => .error er
    | .ok i => .ok (Dict.get e.coeffs i)

/-- `LinearExpression.__setitem__` (`linear_expression.py:59-62`). -/
def LinExpr.setItemPy (e : LinExpr) (vi : Assoc String Nat) (k : PyKey) (v : ℚ) : Except Err LinExpr :=
  match k.raw vi with
  | .error er => .error er
  | .ok a =>
    match scipyIndex e.n a with
    | .error er => .error er
    | .ok i => .ok { e with coeffs := Dict.dokSet e.coeffs i v }

/-- The row and the column addressed by `coefficients[min(i, j), max(i, j)]` (`quadratic_expression.py:62-67, 76-81`): the
comparison is made before negative numbers are counted from the end. -/
def quadPlace (vi : Assoc String Nat) (n : Nat) (k k' : PyKey) : Except Err (Nat × Nat) :=
  match k.raw vi with
  | .error er => .error er
  | .ok a =>
    match k'.raw vi with
    | .error er => .error er
    | .ok b =>
      match scipyIndex n (min a b) with
      | .error er => .error er
      | .ok i =>
        match scipyIndex n (max a b) with
        | .error er => .error er
        | .ok j => .ok (i, j)

/-- `QuadraticExpression.__getitem__` (`quadratic_expression.py:53-67`). -/
def QuadExpr.getItemPy (e : QuadExpr) (vi : Assoc String Nat) (k k' : PyKey) : Except Err ℚ :=
  match quadPlace vi e.n k k' with
  | .error er => .error er
  | .ok q => .ok (Dict.get e.coeffs q)

/-- `QuadraticExpression.__setitem__` (`quadratic_expression.py:69-81`). -/
def QuadExpr.setItemPy (e : QuadExpr) (vi : Assoc String Nat) (k k' : PyKey) (v : ℚ) : Except Err QuadExpr :=
  match quadPlace vi e.n k k' with
  | .error er => .error er
  | .ok q => .ok { e with coeffs := Dict.dokSet e.coeffs q v }

/-- Dictionary branch of `LinearExpression._coeffs_to_dok_matrix` (`linear_expression.py:86-92`). -/
def linOfPyEntries (vi : Assoc String Nat) (n : Nat) : List (PyKey × ℚ) → Dict Nat → Except Err (Dict Nat)
  | [], acc => .ok acc
  | (k, v) :: l, acc =>
    match k.raw vi with
    | .error er => .error er
    | .ok a =>
      match scipyIndex n a with
      | .error er => .error er
      | .ok i => linOfPyEntries vi n l (Dict.dokSet acc i v)

/-- Dictionary branch of `QuadraticExpression._coeffs_to_dok_matrix` (`quadratic_expression.py:105-114, 119`), before
`_triangle_matrix`. -/
def quadOfPyEntries (vi : Assoc String Nat) (n : Nat) :
    List ((PyKey × PyKey) × ℚ) → Dict (Nat × Nat) → Except Err (Dict (Nat × Nat))
  | [], acc => .ok acc
  | ((k, k'), v) :: l, acc =>
    match k.raw vi with
    | .error er => .error er
    | .ok a =>
      match k'.raw vi with
      | .error er => .error er
      | .ok b =>
        match scipyIndex n a with
        | .error er => .error er
        | .ok i =>
          match scipyIndex n b with
          | .error er => .error er
          | .ok j => quadOfPyEntries vi n l (Dict.dokSet acc (i, j) v)

/-- A linear expression made from a dictionary (`linear_expression.py:27-44, 86-92`). -/
def LinExpr.ofPyDict (vi : Assoc String Nat) (n : Nat) (l : List (PyKey × ℚ)) : Except Err LinExpr :=
  match linOfPyEntries vi n l [] with
  | .error er => .error er
  | .ok d => .ok ⟨n, d⟩

/-- A quadratic expression made from a dictionary (`quadratic_expression.py:28-51, 105-119`). -/
def QuadExpr.ofPyDict (vi : Assoc String Nat) (n : Nat) (l : List ((PyKey × PyKey) × ℚ)) : Except Err QuadExpr :=
  match quadOfPyEntries vi n l [] with
  | .error er => .error er
  | .ok d => .ok ⟨n, triangle d⟩

end Verif
