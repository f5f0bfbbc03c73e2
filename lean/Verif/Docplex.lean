import Verif.Program
import Verif.Inputs

/-!
# Docplex models: loading and export

Models `QuadraticProgram.from_docplex` and `to_docplex` (`problems/quadratic_program.py:872-1111`) together with the
part of docplex that they and the application classes use: variables, linear and quadratic expressions, constraints.
-/

namespace Verif

/-! ## Docplex -/

/-- Variable types of docplex; `other` are the semi-continuous and semi-integer types. -/
inductive DType
  | continuous | binary | integer | other
  deriving DecidableEq, Repr

/-- A docplex variable.  The name may be `None`.  Simplification: docplex keeps the bounds as they are given (it caps
them at 1e20). -/
structure DVar where
  name : Option String
  lb : ℚ
  ub : ℚ
  vartype : DType
  deriving DecidableEq, Repr

/-- A docplex expression (`Var`, `MonomialExpr`, `LinearExpr`, `QuadExpr`): constant, coefficients of the variables, given
by their positions in the model, and coefficients of the products (`iter_quad_triplets`).  `isQuad` says that the object is
a `QuadExpr`.  A variable is the expression with one coefficient, as the code itself makes it (`left_expr + 0`). -/
structure DExpr where
  constant : ℚ
  linear : Dict Nat
  quad : Dict (Nat × Nat)
  isQuad : Bool
  deriving DecidableEq, Repr

/-- Constraints of a docplex model: `LinearConstraint`, its subclass `NotEqualConstraint`, `QuadraticConstraint`, and
all other kinds (range, indicator, logical, ...), of any meaning. -/
inductive DCst
  | linear (left : DExpr) (sense : Sense) (right : DExpr) (name : Option String)
  | notEqual (left right : DExpr) (name : Option String)
  | quadratic (left : DExpr) (sense : Sense) (right : DExpr) (name : Option String)
  | other (holds : (Nat → ℚ) → Prop)

/-- A docplex model. -/
structure DModel where
  name : String
  vars : List DVar
  minimize : Bool
  objective : DExpr
  csts : List DCst

namespace DExpr

/-- A number. -/
def const (c : ℚ) : DExpr := ⟨c, [], [], false⟩

/-- `v * x_i`. -/
def term (v : ℚ) (i : Nat) : DExpr := ⟨0, [(i, v)], [], false⟩

/-- A variable. -/
def var (i : Nat) : DExpr := term 1 i

/-- `v * x_i * x_j`; the pairs of docplex are ordered by position. -/
def pair (v : ℚ) (i j : Nat) : DExpr := ⟨0, [], [((min i j, max i j), v)], true⟩

/-- `a + b`. -/
def add (a b : DExpr) : DExpr :=
  { constant := a.constant + b.constant
    linear := b.linear.foldl (fun d p => Dict.add d p.1 p.2) a.linear
    quad := b.quad.foldl (fun d p => Dict.add d p.1 p.2) a.quad
    isQuad := a.isQuad || b.isQuad }

/-- `c * a` for a number `c`. -/
def smul (c : ℚ) (a : DExpr) : DExpr :=
  { constant := c * a.constant
    linear := a.linear.map fun p => (p.1, c * p.2)
    quad := a.quad.map fun p => (p.1, c * p.2)
    isQuad := a.isQuad }

/-- `a - b`. -/
def sub (a b : DExpr) : DExpr := a.add (b.smul (-1))

/-- `mdl.sum(l)`. -/
def sum (l : List DExpr) : DExpr := l.foldl add (const 0)

/-- `a * b` for linear expressions; docplex rejects products with quadratic expressions. -/
def mul (a b : DExpr) : DExpr :=
  (((const (a.constant * b.constant)).add ⟨0, b.linear.map fun p => (p.1, a.constant * p.2), [], false⟩).add
    ⟨0, a.linear.map fun p => (p.1, b.constant * p.2), [], false⟩).add
    (sum (a.linear.flatMap fun p => b.linear.map fun q => pair (p.2 * q.2) p.1 q.1))

end DExpr

/-! ## Loading -/

/-- The variables (`quadratic_program.py:893-907`).  Returns `var_names`, as the list of the names by position. -/
def loadVars : List DVar → QP → Except Err (List String) × QP
  | [], p => (.ok [], p)
  | x :: l, p =>
    let r : Res Variable := match x.vartype with
      | .continuous => p.continuousVar x.lb x.ub x.name
      | .binary => p.binaryVar x.name
      | .integer => p.integerVar x.lb x.ub x.name
      | .other => (.error .optimization, p)
    match r with
    | (.error e, p') => (.error e, p')
    | (.ok v, p') =>
      match loadVars l p' with
      | (.error e, p'') => (.error e, p'')
      | (.ok names, p'') => (.ok (v.name :: names), p'')

/-- `for x in e.iter_variables(): d[var_names[x]] = e.get_coef(x)` (`quadratic_program.py:920-923, 966-968, 994-995,
1002-1003`). -/
def setTerms (names : List String) (coef : Nat → ℚ) : List Nat → Dict String → Except Err (Dict String)
  | [], d => .ok d
  | i :: l, d =>
    match names[i]? with
    | none => .error .keyError
    | some s => setTerms names coef l (Assoc.set d s (coef i))

/-- `for x in e.iter_variables(): d[var_names[x]] = d.get(var_names[x], 0.0) - e.get_coef(x)`
(`quadratic_program.py:969-970, 1006-1009, 1016-1017`). -/
def subTerms (names : List String) (coef : Nat → ℚ) : List Nat → Dict String → Except Err (Dict String)
  | [], d => .ok d
  | i :: l, d =>
    match names[i]? with
    | none => .error .keyError
    | some s => subTerms names coef l (Assoc.set d s (Dict.get d s - coef i))

/-- `for t in e.iter_quad_triplets(): d[i, j] = v` (`quadratic_program.py:926-932, 996-1000`). -/
def setPairs (names : List String) : Dict (Nat × Nat) → Dict (String × String) → Except Err (Dict (String × String))
  | [], d => .ok d
  | (k, v) :: l, d =>
    match names[k.1]?, names[k.2]? with
    | some s, some t => setPairs names l (Assoc.set d (s, t) v)
    | _, _ => .error .keyError

/-- `for t in e.iter_quad_triplets(): d[i, j] = d.get((i, j), 0.0) - v` (`quadratic_program.py:1010-1014`). -/
def subPairs (names : List String) : Dict (Nat × Nat) → Dict (String × String) → Except Err (Dict (String × String))
  | [], d => .ok d
  | (k, v) :: l, d =>
    match names[k.1]?, names[k.2]? with
    | some s, some t => subPairs names l (Assoc.set d (s, t) (Dict.get d (s, t) - v))
    | _, _ => .error .keyError

/-- The objective (`quadratic_program.py:909-938`). -/
def loadObjective (names : List String) (m : DModel) (p : QP) : Res Unit :=
  match setTerms names (Dict.get m.objective.linear) (Assoc.keys m.objective.linear) [] with
  | .error e => (.error e, p)
  | .ok linear =>
    match (if m.objective.isQuad then setPairs names m.objective.quad [] else .ok []) with
    | .error e => (.error e, p)
    | .ok quadratic =>
      if m.minimize then p.minimize m.objective.constant (linNames linear) (quadNames quadratic)
      else p.maximize m.objective.constant (linNames linear) (quadNames quadratic)

/-- The sense strings (`quadratic_program.py:972-979, 1019-1026`). -/
def Sense.toStr : Sense → String
  | .eq => "=="
  | .ge => ">="
  | .le => "<="

/-- One linear constraint (`quadratic_program.py:952-979`). -/
def loadLin (names : List String) (left : DExpr) (sense : Sense) (right : DExpr) (name : Option String) (p : QP) :
    Res LinCst :=
  match setTerms names (Dict.get left.linear) (Assoc.keys left.linear) [] with
  | .error e => (.error e, p)
  | .ok d =>
    match subTerms names (Dict.get right.linear) (Assoc.keys right.linear) d with
    | .error e => (.error e, p)
    | .ok lhs => p.linearConstraint (linNames lhs) (.str sense.toStr) (right.constant - left.constant) name

/-- The loop over the linear constraints (`quadratic_program.py:940-979`). -/
def loadLins (names : List String) : List DCst → QP → Res Unit
  | [], p => (.ok (), p)
  | .quadratic _ _ _ _ :: l, p => loadLins names l p
  | .notEqual _ _ _ :: _, p => (.error .optimization, p)
  | .other _ :: _, p => (.error .optimization, p)
  | .linear left sense right name :: l, p =>
    match loadLin names left sense right name p with
    | (.error e, p') => (.error e, p')
    | (.ok _, p') => loadLins names l p'

/-- The quadratic terms of a side: only a `QuadExpr` has them. -/
def quadOf (e : DExpr) : Dict (Nat × Nat) := if e.isQuad then e.quad else []

/-- One quadratic constraint (`quadratic_program.py:983-1026`). -/
def loadQuad (names : List String) (left : DExpr) (sense : Sense) (right : DExpr) (name : Option String) (p : QP) :
    Res QuadCst :=
  match setTerms names (Dict.get left.linear) (Assoc.keys left.linear) [] with
  | .error e => (.error e, p)
  | .ok linear =>
    match setPairs names (quadOf left) [] with
    | .error e => (.error e, p)
    | .ok quadratic =>
      match subTerms names (Dict.get right.linear) (Assoc.keys right.linear) linear with
      | .error e => (.error e, p)
      | .ok linear =>
        match subPairs names (quadOf right) quadratic with
        | .error e => (.error e, p)
        | .ok quadratic =>
          p.quadraticConstraint (linNames linear) (quadNames quadratic) (.str sense.toStr)
            (right.constant - left.constant) name

/-- The loop over the quadratic constraints (`quadratic_program.py:981-1026`; `iter_quadratic_constraints` gives the
constraints of this kind in order). -/
def loadQuads (names : List String) : List DCst → QP → Res Unit
  | [], p => (.ok (), p)
  | .quadratic left sense right name :: l, p =>
    match loadQuad names left sense right name p with
    | (.error e, p') => (.error e, p')
    | (.ok _, p') => loadQuads names l p'
  | _ :: l, p => loadQuads names l p

/-- `from_docplex` (`quadratic_program.py:872-1026`).  The program is cleared first, so it does not depend on what it
was.  The branches for an unknown comparison are left out, docplex has the three senses only. -/
def fromDocplex (m : DModel) : Res Unit :=
  match loadVars m.vars (QP.empty m.name) with
  | (.error e, p) => (.error e, p)
  | (.ok names, p) =>
    match loadObjective names m p with
    | (.error e, p) => (.error e, p)
    | (.ok _, p) =>
      match loadLins names m.csts p with
      | (.error e, p) => (.error e, p)
      | (.ok _, p) => loadQuads names m.csts p

/-! ## Export -/

/-- The type of the exported variable (`quadratic_program.py:1041-1052`). -/
def VarType.toDocplex : VarType → DType
  | .continuous => .continuous
  | .binary => .binary
  | .integer => .integer

/-- The exported variable (`quadratic_program.py:1041-1052`); `mdl.binary_var(name)` has the bounds 0 and 1. -/
def Variable.toDocplex (v : Variable) : DVar :=
  match v.vartype with
  | .binary => ⟨some v.name, 0, 1, .binary⟩
  | t => ⟨some v.name, v.lb, v.ub, t.toDocplex⟩

/-- `e += v * var[i]` for the entries of a dictionary. -/
def addTerms (d : Dict Nat) (e : DExpr) : DExpr := d.foldl (fun e p => e.add (.term p.2 p.1)) e

/-- `e += v * var[i] * var[j]` for the entries of a dictionary. -/
def addPairs (d : Dict (Nat × Nat)) (e : DExpr) : DExpr := d.foldl (fun e p => e.add (.pair p.2 p.1.1 p.1.2)) e

/-- The value of `0 == rhs`, `0 >= rhs` or `0 <= rhs`, a Python boolean. -/
def Sense.zeroHolds (s : Sense) (rhs : ℚ) : Bool :=
  match s with
  | .eq => decide (0 = rhs)
  | .ge => decide (0 ≥ rhs)
  | .le => decide (0 ≤ rhs)

/-- The constraints made from linear constraints (`quadratic_program.py:1065-1083`).  A left-hand side without terms is
the number zero, so `add_constraint` gets a Python boolean; what docplex does with it is the argument `trivial`. -/
def exportLins (trivial : Bool → Option String → Except Err (List DCst)) : List LinCst → Except Err (List DCst)
  | [] => .ok []
  | c :: l =>
    if c.rhs = 0 ∧ c.linear.coeffs.length = 0 then exportLins trivial l
    else
      match (if c.linear.coeffs.length = 0 then trivial (c.sense.zeroHolds c.rhs) (some c.name)
        else .ok [.linear (addTerms c.linear.coeffs (.const 0)) c.sense (.const c.rhs) (some c.name)] :
          Except Err (List DCst)) with
      | .error e => .error e
      | .ok cs =>
        match exportLins trivial l with
        | .error e => .error e
        | .ok r => .ok (cs ++ r)

/-- The constraints made from quadratic constraints (`quadratic_program.py:1085-1109`).  Without quadratic terms the
left-hand side is a linear expression, so docplex makes a linear constraint. -/
def exportQuads (trivial : Bool → Option String → Except Err (List DCst)) : List QuadCst → Except Err (List DCst)
  | [] => .ok []
  | c :: l =>
    if c.rhs = 0 ∧ c.linear.coeffs.length = 0 ∧ c.quadratic.coeffs.length = 0 then exportQuads trivial l
    else
      match (if c.quadratic.coeffs.length = 0 then
          if c.linear.coeffs.length = 0 then trivial (c.sense.zeroHolds c.rhs) (some c.name)
          else .ok [.linear (addTerms c.linear.coeffs (.const 0)) c.sense (.const c.rhs) (some c.name)]
        else .ok [.quadratic (addPairs c.quadratic.coeffs (addTerms c.linear.coeffs (.const 0))) c.sense (.const c.rhs)
          (some c.name)] : Except Err (List DCst)) with
      | .error e => .error e
      | .ok cs =>
        match exportQuads trivial l with
        | .error e => .error e
        | .ok r => .ok (cs ++ r)

/-- `to_docplex` (`quadratic_program.py:1028-1111`). -/
def toDocplex (trivial : Bool → Option String → Except Err (List DCst)) (p : QP) : Except Err DModel :=
  let objective := addPairs p.objective.quadratic.coeffs (addTerms p.objective.linear.coeffs (.const p.objective.constant))
  match exportLins trivial p.lins with
  | .error e => .error e
  | .ok ls =>
    match exportQuads trivial p.quads with
    | .error e => .error e
    | .ok qs => .ok ⟨p.name, p.vars.map Variable.toDocplex, p.objective.sense == .minimize, objective, ls ++ qs⟩

end Verif
