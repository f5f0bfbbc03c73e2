import Verif.Expr

/-!
# Quadratic programs and their builder operations

Models `problems/quadratic_program.py` (construction, lookup, removal, objective, feasibility),
`problems/linear_constraint.py`, `problems/quadratic_constraint.py`.

A builder operation returns the pair of its outcome and the program afterwards, so the state left behind
by an exception is visible.
-/

namespace Verif

/-- `problems/linear_constraint.py` `LinearConstraint`. -/
structure LinCst where
  name : String
  linear : LinExpr
  sense : Sense
  rhs : ℚ
  deriving DecidableEq, Repr

/-- `problems/quadratic_constraint.py` `QuadraticConstraint`. -/
structure QuadCst where
  name : String
  linear : LinExpr
  quadratic : QuadExpr
  sense : Sense
  rhs : ℚ
  deriving DecidableEq, Repr

/-- `problems/quadratic_program.py:58-62` `QuadraticProgramStatus`. -/
inductive Status
  | valid | infeasible
  deriving DecidableEq, Repr

/-- `problems/quadratic_program.py:65-91` `QuadraticProgram`. -/
structure QP where
  name : String
  status : Status
  vars : List Variable
  varsIndex : Assoc String Nat
  lins : List LinCst
  linsIndex : Assoc String Nat
  quads : List QuadCst
  quadsIndex : Assoc String Nat
  objective : Objective
  deriving DecidableEq, Repr

/-- Outcome of an operation together with the program it leaves. -/
abbrev Res (α : Type) := Except Err α × QP

/-- `quadratic_program.py:74-91, 96-112`: the program made by the constructor, and left by `clear`
(which also resets the name). -/
def QP.empty (name : String) : QP :=
  { name := name, status := .valid, vars := [], varsIndex := [], lins := [], linsIndex := [],
    quads := [], quadsIndex := [],
    objective := ⟨0, ⟨0, []⟩, ⟨0, []⟩, .minimize⟩ }

/-- `quadratic_program.py:557-569` `get_num_vars()`. -/
def QP.numVars (p : QP) : Nat := p.vars.length

/-- The names or numbers of new variables: a number of keys, or a sequence of keys (their `str` form). -/
inductive Keys
  | count (k : Int)
  | seq (l : List String)
  deriving DecidableEq, Repr

/-- A key format string, by the form it has: no replacement field, exactly one `{}` between two literals,
or one rejected by the checks at `quadratic_program.py:189-196` (`{{}}` inside or several `{}`).
Simplification: other brace expressions (`{0}`, `{:d}`, unbalanced braces) are not modelled. -/
inductive KeyFormat
  | lit (s : String)
  | hole (pre post : String)
  | invalid
  deriving DecidableEq, Repr

/-- `key_format.format(key)`. -/
def KeyFormat.format : KeyFormat → String → String
  | .lit s, _ => s
  | .hole pre post, k => pre ++ k ++ post
  | .invalid, _ => ""

/-- `quadratic_program.py:198-211` `_find_name`.  The `while True` loop runs on fuel; the fuel given by
`QP.addVarsLoop` always suffices (`findName_fuel`), running out is reported as an error. -/
def findName (vi : Assoc String Nat) (name : String) (fmt : KeyFormat) :
    Nat → Option String → Nat → Except Err (String × Nat)
  | 0, _, _ => .error .notImplemented
  | fuel + 1, prev, k =>
    let newName := name ++ fmt.format (toString k)
    if some newName = prev then .error .optimization
    else if Assoc.has vi newName then findName vi name fmt fuel (some newName) (k + 1)
    else .ok (newName, k + 1)

/-- One pass of the loop body `quadratic_program.py:222-230` for the name found: duplicate test, index
entry, `Variable` constructor (which may raise after the index entry is made), append. -/
def QP.addOneVar (p : QP) (newName : String) (lb ub : ℚ) (t : VarType) : Res Variable :=
  if Assoc.has p.varsIndex newName then (.error .optimization, p)
  else
    let p := { p with varsIndex := Assoc.set p.varsIndex newName p.numVars }
    match Variable.mk? newName lb ub t with
    | .error e => (.error e, p)
    | .ok v => (.ok v, { p with vars := p.vars ++ [v] })

/-- The loop `quadratic_program.py:217-230` over a number of keys. -/
def QP.addVarsCount (name : String) (fmt : KeyFormat) (lb ub : ℚ) (t : VarType) :
    Nat → Nat → QP → Res (List Variable)
  | 0, _, p => (.ok [], p)
  | m + 1, k, p =>
    match findName p.varsIndex name fmt (p.varsIndex.length + 2) none k with
    | .error e => (.error e, p)
    | .ok (newName, k') =>
      match p.addOneVar newName lb ub t with
      | (.error e, p') => (.error e, p')
      | (.ok v, p') =>
        match QP.addVarsCount name fmt lb ub t m k' p' with
        | (.error e, p'') => (.error e, p'')
        | (.ok vs, p'') => (.ok (v :: vs), p'')

/-- The loop `quadratic_program.py:217-230` over a sequence of keys. -/
def QP.addVarsSeq (name : String) (fmt : KeyFormat) (lb ub : ℚ) (t : VarType) :
    List String → QP → Res (List Variable)
  | [], p => (.ok [], p)
  | key :: l, p =>
    match p.addOneVar (name ++ fmt.format key) lb ub t with
    | (.error e, p') => (.error e, p')
    | (.ok v, p') =>
      match QP.addVarsSeq name fmt lb ub t l p' with
      | (.error e, p'') => (.error e, p'')
      | (.ok vs, p'') => (.ok (v :: vs), p'')

/-- `quadratic_program.py:174-231` `_add_variables`; the public `*_var_list`, `*_var_dict` operations are
this with the returned variables arranged in a list or a dictionary. -/
def QP.addVariables (p : QP) (keys : Keys) (lb ub : ℚ) (t : VarType) (name : Option String)
    (fmt : KeyFormat) : Res (List Variable) :=
  let name := name.getD "x"
  match keys with
  | .count k =>
    if k < 1 then (.error .optimization, p)
    else if fmt = .invalid then (.error .optimization, p)
    else QP.addVarsCount name fmt lb ub t k.toNat p.numVars p
  | .seq l =>
    if fmt = .invalid then (.error .optimization, p)
    else QP.addVarsSeq name fmt lb ub t l p

/-- `quadratic_program.py:160-172` `_add_variable`. -/
def QP.addVariable (p : QP) (lb ub : ℚ) (t : VarType) (name : Option String) : Res Variable :=
  let r := match name with
    | none => p.addVariables (.count 1) lb ub t (some "x") (.hole "" "")
    | some s => p.addVariables (.count 1) lb ub t (some s) (.lit "")
  match r with
  | (.ok (v :: _), p') => (.ok v, p')
  | (.ok [], p') => (.error .indexError, p')
  | (.error e, p') => (.error e, p')

/-- `quadratic_program.py:305-324` `continuous_var`. -/
def QP.continuousVar (p : QP) (lb ub : ℚ) (name : Option String) : Res Variable :=
  p.addVariable lb ub .continuous name

/-- `quadratic_program.py:392-404` `binary_var`. -/
def QP.binaryVar (p : QP) (name : Option String) : Res Variable := p.addVariable 0 1 .binary name

/-- `quadratic_program.py:460-479` `integer_var`. -/
def QP.integerVar (p : QP) (lb ub : ℚ) (name : Option String) : Res Variable :=
  p.addVariable lb ub .integer name

/-- `quadratic_program.py:543-555` `get_variable`. -/
def QP.getVariable (p : QP) : Key → Except Err Variable
  | .idx i => match p.vars[i]? with | some v => .ok v | none => .error .indexError
  | .name s =>
    match Assoc.get? p.varsIndex s with
    | none => .error .keyError
    | some i => match p.vars[i]? with | some v => .ok v | none => .error .indexError

/-- `quadratic_program.py:639-648, 732-741`: the loop choosing the first free name `pre ++ k`.  Fuel as
in `findName`. -/
def freeName (ix : Assoc String Nat) (pre : String) : Nat → Nat → Option String
  | 0, _ => none
  | fuel + 1, k =>
    if Assoc.has ix (pre ++ toString k) then freeName ix pre fuel (k + 1)
    else some (pre ++ toString k)

/-- Name selection `quadratic_program.py:635-648` / `728-741`: an explicit non-empty name must be new, an
absent (or empty) one is generated. -/
def chooseName (ix : Assoc String Nat) (count : Nat) (pre : String) (name : Option String) :
    Except Err String :=
  match name with
  | some s =>
    if s = "" then
      match freeName ix pre (ix.length + 1) count with
      | some n => .ok n
      | none => .error .notImplemented
    else if Assoc.has ix s then .error .optimization else .ok s
  | none =>
    match freeName ix pre (ix.length + 1) count with
    | some n => .ok n
    | none => .error .notImplemented

/-- `quadratic_program.py:613-654` `linear_constraint`. -/
def QP.linearConstraint (p : QP) (linear : LinInput) (sense : SenseInput) (rhs : ℚ)
    (name : Option String) : Res LinCst :=
  match chooseName p.linsIndex p.lins.length "c" name with
  | .error e => (.error e, p)
  | .ok nm =>
    let p := { p with linsIndex := Assoc.set p.linsIndex nm p.lins.length }
    match Sense.convert sense with
    | .error e => (.error e, p)
    | .ok s =>
      match LinExpr.ofInput p.varsIndex p.numVars linear with
      | .error e => (.error e, p)
      | .ok l =>
        let c : LinCst := ⟨nm, l, s, rhs⟩
        (.ok c, { p with lins := p.lins ++ [c] })

/-- `quadratic_program.py:700-751` `quadratic_constraint`. -/
def QP.quadraticConstraint (p : QP) (linear : LinInput) (quadratic : QuadInput) (sense : SenseInput)
    (rhs : ℚ) (name : Option String) : Res QuadCst :=
  match chooseName p.quadsIndex p.quads.length "q" name with
  | .error e => (.error e, p)
  | .ok nm =>
    let p := { p with quadsIndex := Assoc.set p.quadsIndex nm p.quads.length }
    match Sense.convert sense with
    | .error e => (.error e, p)
    | .ok s =>
      match LinExpr.ofInput p.varsIndex p.numVars linear with
      | .error e => (.error e, p)
      | .ok l =>
        match QuadExpr.ofInput p.varsIndex p.numVars quadratic with
        | .error e => (.error e, p)
        | .ok q =>
          let c : QuadCst := ⟨nm, l, q, s, rhs⟩
          (.ok c, { p with quads := p.quads ++ [c] })

/-- `quadratic_program.py:656-672` `get_linear_constraint`. -/
def QP.getLinearConstraint (p : QP) : Key → Except Err LinCst
  | .idx i => match p.lins[i]? with | some c => .ok c | none => .error .indexError
  | .name s =>
    match Assoc.get? p.linsIndex s with
    | none => .error .keyError
    | some i => match p.lins[i]? with | some c => .ok c | none => .error .indexError

/-- `quadratic_program.py:753-769` `get_quadratic_constraint`. -/
def QP.getQuadraticConstraint (p : QP) : Key → Except Err QuadCst
  | .idx i => match p.quads[i]? with | some c => .ok c | none => .error .indexError
  | .name s =>
    match Assoc.get? p.quadsIndex s with
    | none => .error .keyError
    | some i => match p.quads[i]? with | some c => .ok c | none => .error .indexError

/-- `{cst.name: j for j, cst in enumerate(...)}` (`quadratic_program.py:792-794, 809-811`). -/
def indexOfNames (l : List String) : Assoc String Nat := Assoc.ofEntries l.zipIdx

/-- `quadratic_program.py:779-794` `remove_linear_constraint`. -/
def QP.removeLinear (p : QP) (k : Key) : Res Unit :=
  let i : Except Err Nat := match k with
    | .idx i => .ok i
    | .name s => match Assoc.get? p.linsIndex s with | none => .error .keyError | some i => .ok i
  match i with
  | .error e => (.error e, p)
  | .ok i =>
    if i < p.lins.length then
      let l := p.lins.eraseIdx i
      (.ok (), { p with lins := l, linsIndex := indexOfNames (l.map LinCst.name) })
    else (.error .indexError, p)

/-- `quadratic_program.py:796-811` `remove_quadratic_constraint`. -/
def QP.removeQuadratic (p : QP) (k : Key) : Res Unit :=
  let i : Except Err Nat := match k with
    | .idx i => .ok i
    | .name s => match Assoc.get? p.quadsIndex s with | none => .error .keyError | some i => .ok i
  match i with
  | .error e => (.error e, p)
  | .ok i =>
    if i < p.quads.length then
      let l := p.quads.eraseIdx i
      (.ok (), { p with quads := l, quadsIndex := indexOfNames (l.map QuadCst.name) })
    else (.error .indexError, p)

/-- `quadratic_program.py:822-870` `minimize` / `maximize` (with `quadratic_objective.py:39-70`). -/
def QP.setObjective (p : QP) (sense : ObjSense) (constant : ℚ) (linear : LinInput)
    (quadratic : QuadInput) : Res Unit :=
  match LinExpr.ofInput p.varsIndex p.numVars linear with
  | .error e => (.error e, p)
  | .ok l =>
    match QuadExpr.ofInput p.varsIndex p.numVars quadratic with
    | .error e => (.error e, p)
    | .ok q => (.ok (), { p with objective := ⟨constant, l, q, sense⟩ })

/-- `quadratic_program.py:822-845` `minimize`. -/
def QP.minimize (p : QP) (constant : ℚ) (linear : LinInput) (quadratic : QuadInput) : Res Unit :=
  p.setObjective .minimize constant linear quadratic

/-- `quadratic_program.py:847-870` `maximize`. -/
def QP.maximize (p : QP) (constant : ℚ) (linear : LinInput) (quadratic : QuadInput) : Res Unit :=
  p.setObjective .maximize constant linear quadratic

/-- Assigning a variable's bound: `qp.variables[i].lowerbound = v` (`variable.py:87-99`). -/
def QP.setLowerbound (p : QP) (i : Nat) (v : ℚ) : Res Unit :=
  match p.vars[i]? with
  | none => (.error .indexError, p)
  | some x =>
    match x.setLb v with
    | .error e => (.error e, p)
    | .ok x' => (.ok (), { p with vars := p.vars.set i x' })

/-- Assigning a variable's bound: `qp.variables[i].upperbound = v` (`variable.py:110-122`). -/
def QP.setUpperbound (p : QP) (i : Nat) (v : ℚ) : Res Unit :=
  match p.vars[i]? with
  | none => (.error .indexError, p)
  | some x =>
    match x.setUb v with
    | .error e => (.error e, p)
    | .ok x' => (.ok (), { p with vars := p.vars.set i x' })

/-- Assignments to a linear constraint of the program: `c.sense = s` (`constraint.py:111-118`), `c.rhs = r`
(`constraint.py:129-136`), `c.linear = l` (`linear_constraint.py:58-70`) and `c.linear[k] = v`
(`linear_expression.py:59-62`).  The setter of `coefficients` (`linear_expression.py:106-116`) does the same as `linear`. -/
inductive LinEdit
  | sense (s : Sense)
  | rhs (r : ℚ)
  | linear (l : LinInput)
  | linCoeff (k : Key) (v : ℚ)

/-- Assignments to a quadratic constraint: as before, and `c.linear = l` (`quadratic_constraint.py:68-83`),
`c.quadratic = q` (`quadratic_constraint.py:92-109`), `c.quadratic[k, k'] = v` (`quadratic_expression.py:69-81`). -/
inductive QuadEdit
  | sense (s : Sense)
  | rhs (r : ℚ)
  | linear (l : LinInput)
  | quadratic (q : QuadInput)
  | linCoeff (k : Key) (v : ℚ)
  | quadCoeff (k k' : Key) (v : ℚ)

/-- Assignments to the objective: `constant` (`quadratic_objective.py:81-88`), `sense` (148-155), `linear` (99-110),
`quadratic` (121-137) and single coefficients. -/
inductive ObjEdit
  | constant (c : ℚ)
  | sense (s : ObjSense)
  | linear (l : LinInput)
  | quadratic (q : QuadInput)
  | linCoeff (k : Key) (v : ℚ)
  | quadCoeff (k k' : Key) (v : ℚ)

/-- Assignments to parts of a program: its name (`quadratic_program.py:123-130`), the type of a variable
(`variable.py:134-141`), a constraint (`qp.linear_constraints[i]`, `qp.quadratic_constraints[i]`), the objective. -/
inductive Edit
  | name (s : String)
  | vartype (i : Nat) (t : VarType)
  | lin (i : Nat) (e : LinEdit)
  | quad (i : Nat) (e : QuadEdit)
  | obj (e : ObjEdit)

/-- The linear constraint after an assignment (see `LinEdit`). -/
def LinCst.edit (p : QP) (c : LinCst) : LinEdit → Except Err LinCst
  | .sense s => .ok { c with sense := s }
  | .rhs r => .ok { c with rhs := r }
  | .linear l =>
    match LinExpr.ofInput p.varsIndex p.numVars l with
    | .error e => .error e
    | .ok l => .ok { c with linear := l }
  | .linCoeff k v =>
    match c.linear.setItem p.varsIndex k v with
    | .error e => .error e
    | .ok l => .ok { c with linear := l }

/-- The quadratic constraint after an assignment (see `QuadEdit`). -/
def QuadCst.edit (p : QP) (c : QuadCst) : QuadEdit → Except Err QuadCst
  | .sense s => .ok { c with sense := s }
  | .rhs r => .ok { c with rhs := r }
  | .linear l =>
    match LinExpr.ofInput p.varsIndex p.numVars l with
    | .error e => .error e
    | .ok l => .ok { c with linear := l }
  | .quadratic q =>
    match QuadExpr.ofInput p.varsIndex p.numVars q with
    | .error e => .error e
    | .ok q => .ok { c with quadratic := q }
  | .linCoeff k v =>
    match c.linear.setItem p.varsIndex k v with
    | .error e => .error e
    | .ok l => .ok { c with linear := l }
  | .quadCoeff k k' v =>
    match c.quadratic.setItem p.varsIndex k k' v with
    | .error e => .error e
    | .ok q => .ok { c with quadratic := q }

/-- The objective after an assignment (see `ObjEdit`). -/
def Objective.edit (p : QP) (o : Objective) : ObjEdit → Except Err Objective
  | .constant c => .ok { o with constant := c }
  | .sense s => .ok { o with sense := s }
  | .linear l =>
    match LinExpr.ofInput p.varsIndex p.numVars l with
    | .error e => .error e
    | .ok l => .ok { o with linear := l }
  | .quadratic q =>
    match QuadExpr.ofInput p.varsIndex p.numVars q with
    | .error e => .error e
    | .ok q => .ok { o with quadratic := q }
  | .linCoeff k v =>
    match o.linear.setItem p.varsIndex k v with
    | .error e => .error e
    | .ok l => .ok { o with linear := l }
  | .quadCoeff k k' v =>
    match o.quadratic.setItem p.varsIndex k k' v with
    | .error e => .error e
    | .ok q => .ok { o with quadratic := q }

/-- The program after an assignment (see `Edit`).  The setter of the type of a variable does not look at its bounds. -/
def QP.edit (p : QP) : Edit → Except Err QP
  | .name s => .ok { p with name := s }
  | .vartype i t =>
    match p.vars[i]? with
    | none => .error .indexError
    | some x => .ok { p with vars := p.vars.set i { x with vartype := t } }
  | .lin i e =>
    match p.lins[i]? with
    | none => .error .indexError
    | some c =>
      match c.edit p e with
      | .error er => .error er
      | .ok c => .ok { p with lins := p.lins.set i c }
  | .quad i e =>
    match p.quads[i]? with
    | none => .error .indexError
    | some c =>
      match c.edit p e with
      | .error er => .error er
      | .ok c => .ok { p with quads := p.quads.set i c }
  | .obj e =>
    match p.objective.edit p e with
    | .error er => .error er
    | .ok o => .ok { p with objective := o }

/-- The builder calls and assignments of the public interface. -/
inductive Call
  | addVars (keys : Keys) (lb ub : ℚ) (t : VarType) (name : Option String) (fmt : KeyFormat)
  | addVar (lb ub : ℚ) (t : VarType) (name : Option String)
  | linear (linear : LinInput) (sense : SenseInput) (rhs : ℚ) (name : Option String)
  | quadratic (linear : LinInput) (quadratic : QuadInput) (sense : SenseInput) (rhs : ℚ)
      (name : Option String)
  | removeLin (k : Key)
  | removeQuad (k : Key)
  | objective (sense : ObjSense) (constant : ℚ) (linear : LinInput) (quadratic : QuadInput)
  | clear
  | setLb (i : Nat) (v : ℚ)
  | setUb (i : Nat) (v : ℚ)
  | edit (e : Edit)

/-- Forgetting the returned object. -/
def Res.drop {α : Type} : Res α → Res Unit
  | (.ok _, p) => (.ok (), p)
  | (.error e, p) => (.error e, p)

/-- Execution of one builder call. -/
def Call.apply (p : QP) : Call → Res Unit
  | .addVars keys lb ub t name fmt => Res.drop (p.addVariables keys lb ub t name fmt)
  | .addVar lb ub t name => Res.drop (p.addVariable lb ub t name)
  | .linear l s r nm => Res.drop (p.linearConstraint l s r nm)
  | .quadratic l q s r nm => Res.drop (p.quadraticConstraint l q s r nm)
  | .removeLin k => p.removeLinear k
  | .removeQuad k => p.removeQuadratic k
  | .objective s c l q => p.setObjective s c l q
  | .clear => (.ok (), QP.empty "")
  | .setLb i v => p.setLowerbound i v
  | .setUb i v => p.setUpperbound i v
  | .edit e =>
    match p.edit e with
    | .error er => (.error er, p)
    | .ok p' => (.ok (), p')

/-- Execution of a sequence of calls, stopping at the first exception. -/
def runCalls : QP → List Call → Res Unit
  | p, [] => (.ok (), p)
  | p, c :: cs =>
    match c.apply p with
    | (.error e, p') => (.error e, p')
    | (.ok _, p') => runCalls p' cs

/-! ## Feasibility -/

/-- `math.isclose(a, b)` with its default tolerances (`rel_tol=1e-09, abs_tol=0.0`) on rationals. -/
def isclose (a b : ℚ) : Bool := decide (|a - b| ≤ max (1 / 10 ^ 9 * max |a| |b|) 0)

/-- A constraint of either kind, as listed by `get_feasibility_info`. -/
inductive Cst
  | lin (c : LinCst)
  | quad (c : QuadCst)
  deriving DecidableEq, Repr

/-- `constraint.evaluate(x)` (`linear_constraint.py:72-81`, `quadratic_constraint.py:111-120`). -/
def Cst.evaluate : Cst → List ℚ → Except Err ℚ
  | .lin c, x => c.linear.evaluate x
  | .quad c, x =>
    match c.linear.evaluate x with
    | .error e => .error e
    | .ok l =>
      match c.quadratic.evaluate x with
      | .error e => .error e
      | .ok q => .ok (l + q)

def Cst.sense : Cst → Sense
  | .lin c => c.sense
  | .quad c => c.sense

def Cst.rhs : Cst → ℚ
  | .lin c => c.rhs
  | .quad c => c.rhs

/-- The test of `quadratic_program.py:1485-1490`: is the constraint with this left-hand side violated? -/
def violates (s : Sense) (lhs rhs : ℚ) : Bool :=
  match s with
  | .le => decide (lhs > rhs)
  | .ge => decide (lhs < rhs)
  | .eq => !isclose lhs rhs

/-- The loop `quadratic_program.py:1480-1490`. -/
def violatedCsts (x : List ℚ) : List Cst → Except Err (List Cst)
  | [] => .ok []
  | c :: cs =>
    match c.evaluate x with
    | .error e => .error e
    | .ok lhs =>
      match violatedCsts x cs with
      | .error e => .error e
      | .ok r => .ok (if violates c.sense lhs c.rhs then c :: r else r)

/-- The loop `quadratic_program.py:1472-1476`. -/
def violatedVars : List ℚ → List Variable → List Variable
  | val :: xs, v :: vs => if val < v.lb ∨ v.ub < val then v :: violatedVars xs vs else violatedVars xs vs
  | _, _ => []

/-- The constraints in the order of `quadratic_program.py:1480-1482`. -/
def QP.csts (p : QP) : List Cst := p.lins.map .lin ++ p.quads.map .quad

/-- `quadratic_program.py:1452-1495` `get_feasibility_info`. -/
def QP.getFeasibilityInfo (p : QP) (x : List ℚ) : Except Err (Bool × List Variable × List Cst) :=
  if x.length ≠ p.numVars then .error .optimization
  else
    let vv := violatedVars x p.vars
    match violatedCsts x p.csts with
    | .error e => .error e
    | .ok vc => .ok (vv.isEmpty && vc.isEmpty, vv, vc)

/-- `quadratic_program.py:1497-1509` `is_feasible`. -/
def QP.isFeasible (p : QP) (x : List ℚ) : Except Err Bool :=
  match p.getFeasibilityInfo x with
  | .error e => .error e
  | .ok r => .ok r.1

end Verif
