import Verif.Qubo
import Verif.Result

/-!
# Converter objects

Models the state that the converters keep between calls (`_src`, `_dst`, `_conv`, `_penalty`,
`_should_define_penalty`), for objects that convert several problems.  The models of `convert` in
`Verif/IntToBin.lean`, `Verif/IneqToEq.lean`, `Verif/Penalty.lean` and `Verif/Qubo.lean` describe an object that has not
been used before.

The program that an exception leaves in `_dst` is not modelled: it is the argument `left`, which is arbitrary.
-/

namespace Verif

/-! ## `IntegerToBinary` -/

/-- The binary variables of an integer variable and their coefficients. -/
abbrev Enc := List (String × ℚ)

/-- `self._conv` (`integer_to_binary.py:54`).  Keys are variable objects, which are compared by identity (`Variable`
defines neither `__eq__` nor `__hash__`): a variable object is given by the number of the copy of a program that it
belongs to (`copy.deepcopy(problem)`, `integer_to_binary.py:71`, makes new objects) and its position there. -/
abbrev ObjConv := Assoc (Nat × Nat) Enc

/-- `get_variable` (`quadratic_program.py:543-555`) by name, with the position of the variable. -/
def QP.variableAt (p : QP) (s : String) : Except Err (Nat × Variable) :=
  match Assoc.get? p.varsIndex s with
  | none => .error .keyError
  | some i => match p.vars[i]? with | some v => .ok (i, v) | none => .error .indexError

/-- Declaration of the variables (`integer_to_binary.py:79-93`) of the copy `id`, from position `i` on: the outcome
and `self._conv` after it. -/
def i2bVarsO (id : Nat) : Nat → List Variable → ObjConv → QP → Except Err QP × ObjConv
  | _, [], conv, dst => (.ok dst, conv)
  | i, x :: l, conv, dst =>
    match x.vartype with
    | .integer =>
      match convertVar x.name x.lb x.ub with
      | .error e => (.error e, conv)
      | .ok enc =>
        let conv := Assoc.set conv (id, i) enc
        match addBins enc dst with
        | .error e => (.error e, conv)
        | .ok dst => i2bVarsO id (i + 1) l conv dst
    | .continuous =>
      match dst.continuousVar x.lb x.ub (some x.name) with
      | (.error e, _) => (.error e, conv)
      | (.ok _, dst) => i2bVarsO id (i + 1) l conv dst
    | .binary =>
      match dst.binaryVar (some x.name) with
      | (.error e, _) => (.error e, conv)
      | (.ok _, dst) => i2bVarsO id (i + 1) l conv dst

/-- `_convert_linear_coefficients_dict` (`integer_to_binary.py:113-127`), with the accumulators. -/
def i2bLinO (src : QP) (id : Nat) (conv : ObjConv) : Dict String → Dict String → ℚ → Except Err (Dict String × ℚ)
  | [], lin, c => .ok (lin, c)
  | (s, v) :: l, lin, c =>
    match src.variableAt s with
    | .error e => .error e
    | .ok (i, x) =>
      match Assoc.get? conv (id, i) with
      | some enc => i2bLinO src id conv l (enc.foldl (fun d p => Assoc.set d p.1 (v * p.2)) lin) (c + v * x.lb)
      | none => i2bLinO src id conv l (Assoc.set lin x.name v) c

/-- `_convert_quadratic_coefficients_dict` (`integer_to_binary.py:129-164`), with the accumulators. -/
def i2bQuadO (src : QP) (id : Nat) (conv : ObjConv) : Dict (String × String) → Dict (String × String) → Dict String →
    ℚ → Except Err (Dict (String × String) × Dict String × ℚ)
  | [], quad, lin, c => .ok (quad, lin, c)
  | ((si, sj), v) :: l, quad, lin, c =>
    match src.variableAt si with
    | .error e => .error e
    | .ok (i, x) =>
      match src.variableAt sj with
      | .error e => .error e
      | .ok (j, y) =>
        match Assoc.get? conv (id, i), Assoc.get? conv (id, j) with
        | some ex, none =>
          i2bQuadO src id conv l (ex.foldl (fun d p => Assoc.set d (p.1, y.name) (v * p.2)) quad)
            (Dict.add lin y.name (v * x.lb)) c
        | none, some ey =>
          i2bQuadO src id conv l (ey.foldl (fun d p => Assoc.set d (x.name, p.1) (v * p.2)) quad)
            (Dict.add lin x.name (v * y.lb)) c
        | some ex, some ey =>
          i2bQuadO src id conv l
            (ex.foldl (fun d p => ey.foldl (fun d q => Assoc.set d (p.1, q.1) (v * p.2 * q.2)) d) quad)
            (ey.foldl (fun d q => Dict.add d q.1 (v * x.lb))
              (ex.foldl (fun d p => Dict.add d p.1 (v * y.lb)) lin))
            (c + v * x.lb * y.lb)
        | none, none => i2bQuadO src id conv l (Assoc.set quad (x.name, y.name) v) lin c

/-- The objective part of `_substitute_int_var` (`integer_to_binary.py:168-183`). -/
def i2bObjectiveO (src : QP) (id : Nat) (conv : ObjConv) (dst : QP) : Except Err QP :=
  match i2bLinO src id conv (src.objective.linear.toDictNames src.vars) [] 0 with
  | .error e => .error e
  | .ok (lin, lc) =>
    match i2bQuadO src id conv (src.objective.quadratic.toDictNames src.vars) [] [] 0 with
    | .error e => .error e
    | .ok (quad, ql, qc) =>
      match dst.setObjective src.objective.sense (src.objective.constant + lc + qc)
        (linNames (dokPlus lin ql)) (quadNames quad) with
      | (.error e, _) => .error e
      | (.ok _, dst) => .ok dst

/-- The linear constraints (`integer_to_binary.py:186-192`). -/
def i2bLinsO (src : QP) (id : Nat) (conv : ObjConv) : List LinCst → QP → Except Err QP
  | [], dst => .ok dst
  | k :: ks, dst =>
    match i2bLinO src id conv (k.linear.toDictNames src.vars) [] 0 with
    | .error e => .error e
    | .ok (lin, c) =>
      match dst.linearConstraint (linNames lin) (.sense k.sense) (k.rhs - c) (some k.name) with
      | (.error e, _) => .error e
      | (.ok _, dst) => i2bLinsO src id conv ks dst

/-- The quadratic constraints (`integer_to_binary.py:195-213`). -/
def i2bQuadsO (src : QP) (id : Nat) (conv : ObjConv) : List QuadCst → QP → Except Err QP
  | [], dst => .ok dst
  | k :: ks, dst =>
    match i2bLinO src id conv (k.linear.toDictNames src.vars) [] 0 with
    | .error e => .error e
    | .ok (lin, lc) =>
      match i2bQuadO src id conv (k.quadratic.toDictNames src.vars) [] [] 0 with
      | .error e => .error e
      | .ok (quad, ql, qc) =>
        match dst.quadraticConstraint (linNames (dokPlus lin ql)) (quadNames quad) (.sense k.sense)
          (k.rhs - (lc + qc)) (some k.name) with
        | (.error e, _) => .error e
        | (.ok _, dst) => i2bQuadsO src id conv ks dst

/-- `_substitute_int_var` (`integer_to_binary.py:166-213`). -/
def i2bSubstituteO (src : QP) (id : Nat) (conv : ObjConv) (dst : QP) : Except Err QP :=
  match i2bObjectiveO src id conv dst with
  | .error e => .error e
  | .ok dst =>
    match i2bLinsO src id conv src.lins dst with
    | .error e => .error e
    | .ok dst => i2bQuadsO src id conv src.quads dst

/-- An `IntegerToBinary` object; `copies` counts the programs it has copied, the last of which is `src`. -/
structure I2BObj where
  copies : Nat
  src : Option QP
  dst : Option QP
  conv : ObjConv

/-- The constructor (`integer_to_binary.py:51-55`). -/
def I2BObj.new : I2BObj := ⟨0, none, none, []⟩

/-- What a call leaves in `_dst`. -/
def leaves (left : Option QP) : Except Err QP → Option QP
  | .ok dst => some dst
  | .error _ => left

/-- `convert` (`integer_to_binary.py:57-101`): the outcome and the object after the call. -/
def I2BObj.convert (o : I2BObj) (left : Option QP) (p : QP) : Except Err QP × I2BObj :=
  let id := o.copies + 1
  if p.numIntegerVars > 0 then
    let r := i2bVarsO id 0 p.vars o.conv (QP.empty p.name)
    let res := match r.1 with
      | .error e => .error e
      | .ok dst => i2bSubstituteO p id r.2 dst
    (res, ⟨id, some p, leaves left res, r.2⟩)
  else (.ok p, ⟨id, some p, some p, o.conv⟩)

/-- The loop of `interpret` (`integer_to_binary.py:228-232`) over the variables of the copy `id`. -/
def i2bInterpretVarsO (id : Nat) (conv : ObjConv) (sol : Assoc String ℚ) : Nat → List Variable → Except Err (List ℚ)
  | _, [] => .ok []
  | i, v :: l =>
    match (match Assoc.get? conv (id, i) with
      | some enc => (match decodeSum sol enc with | .error e => .error e | .ok s => .ok (s + v.lb))
      | none => lookupSol sol v.name : Except Err ℚ) with
    | .error e => .error e
    | .ok a => match i2bInterpretVarsO id conv sol (i + 1) l with | .error e => .error e | .ok r => .ok (a :: r)

/-- `interpret` (`integer_to_binary.py:215-233`).  Before the first conversion `None` has no attribute `variables`. -/
def I2BObj.interpret (o : I2BObj) (x : List ℚ) : Except Err (List ℚ) :=
  match o.dst, o.src with
  | some dst, some src =>
    match solDict dst.vars x with
    | .error e => .error e
    | .ok sol => i2bInterpretVarsO o.copies o.conv sol 0 src.vars
  | _, _ => .error .attributeError

/-! ## `InequalityToEquality` -/

/-- An `InequalityToEquality` object (`inequality_to_equality.py:44-57`). -/
structure IneqObj where
  mode : SlackMode
  src : Option QP
  dst : Option QP

/-- The constructor (`inequality_to_equality.py:44-57`). -/
def IneqObj.new (mode : SlackMode) : IneqObj := ⟨mode, none, none⟩

/-- `convert` (`inequality_to_equality.py:59-178`): the outcome and the object after the call. -/
def IneqObj.convert (o : IneqObj) (left : Option QP) (p : QP) : Except Err QP × IneqObj :=
  let res := p.ineqToEq o.mode
  (res, { o with src := some p, dst := leaves left res })

/-- `interpret` (`inequality_to_equality.py:376-393`). -/
def IneqObj.interpret (o : IneqObj) (x : List ℚ) : Except Err (List ℚ) :=
  match o.dst, o.src with
  | some dst, some src => ineqInterpret src dst x
  | _, _ => .error .attributeError

/-! ## `LinearEqualityToPenalty` -/

/-- A `LinearEqualityToPenalty` object (`linear_equality_to_penalty.py:35-44`).  `_dst` is never read again. -/
structure PenObj where
  src : Option QP
  /-- `self._penalty` -/
  penalty : Option ℚ
  /-- `self._should_define_penalty` -/
  auto : Bool

/-- The setter of `penalty` (`linear_equality_to_penalty.py:195-205`). -/
def PenObj.setPenalty (o : PenObj) (v : Option ℚ) : PenObj := { o with penalty := v, auto := v.isNone }

/-- The constructor (`linear_equality_to_penalty.py:35-44`): it uses the setter. -/
def PenObj.new (v : Option ℚ) : PenObj := PenObj.setPenalty ⟨none, none, false⟩ v

/-- `convert` (`linear_equality_to_penalty.py:46-127`): the penalty is computed if `_should_define_penalty` is set and
read from `_penalty` otherwise; after a conversion `_penalty` is the penalty used.  A flag that is not set together with
`_penalty = None` would make the product with the penalty fail: `TypeError`. -/
def PenObj.convert (o : PenObj) (p : QP) : Except Err QP × PenObj :=
  let o := { o with src := some p }
  match (if o.auto then some (autoPenalty p) else o.penalty) with
  | none => (.error .typeError, o)
  | some pen =>
    match p.toPenalty (some pen) with
    | .error e => (.error e, o)
    | .ok (dst, _) => (.ok dst, { o with penalty := some pen })

/-- `interpret` (`linear_equality_to_penalty.py:166-184`). -/
def PenObj.interpret (o : PenObj) (x : List ℚ) : Except Err (List ℚ) :=
  match o.src with
  | some src => penInterpret src x
  | none => .error .attributeError

/-! ## `QuadraticProgramToQubo` -/

/-- A `QuadraticProgramToQubo` object (`quadratic_program_to_qubo.py:36-49`). -/
structure QuboObj where
  ineq : IneqObj
  i2b : I2BObj
  pen : PenObj

/-- The constructor (`quadratic_program_to_qubo.py:36-49`). -/
def QuboObj.new (v : Option ℚ) : QuboObj := ⟨.new .integer, .new, .new v⟩

/-- `penalty` (`quadratic_program_to_qubo.py:149-156`). -/
def QuboObj.penalty (o : QuboObj) : Option ℚ := o.pen.penalty

/-- The setter of `penalty` (`quadratic_program_to_qubo.py:158-167`). -/
def QuboObj.setPenalty (o : QuboObj) (v : Option ℚ) : QuboObj := { o with pen := o.pen.setPenalty v }

/-- `convert` (`quadratic_program_to_qubo.py:51-79`): the outcome and the object after the call. -/
def QuboObj.convert (o : QuboObj) (left : Option QP) (p : QP) : Except Err QP × QuboObj :=
  if (quboMsg p).length > 0 then (.error .optimization, o)
  else
    let r1 := o.ineq.convert left p
    let o := { o with ineq := r1.2 }
    match r1.1 with
    | .error e => (.error e, o)
    | .ok eqs =>
      let r2 := o.i2b.convert left eqs
      let o := { o with i2b := r2.2 }
      match r2.1 with
      | .error e => (.error e, o)
      | .ok bins =>
        let r3 := o.pen.convert bins
        (r3.1, { o with pen := r3.2 })

/-- `interpret` (`quadratic_program_to_qubo.py:81-93`). -/
def QuboObj.interpret (o : QuboObj) (x : List ℚ) : Except Err (List ℚ) :=
  match o.pen.interpret x with
  | .error e => .error e
  | .ok x =>
    match o.i2b.interpret x with
    | .error e => .error e
    | .ok x => o.ineq.interpret x

/-- `_convert` (`optimization_algorithm.py:400-421`) for a list of converter objects of one class: the outcome and the
objects after it.  The objects of the list are taken to be different objects. -/
def convertObjs : List QuboObj → Option QP → QP → Except Err QP × List QuboObj
  | [], _, p => (.ok p, [])
  | o :: os, left, p =>
    let r := o.convert left p
    match r.1 with
    | .error e => (.error e, r.2 :: os)
    | .ok q =>
      let rs := convertObjs os left q
      (rs.1, r.2 :: rs.2)

/-- `MinimumEigenOptimizer.solve` (`minimum_eigen_optimizer.py:173-197`) of an optimizer that holds converter objects:
the outcome and the objects after the call. -/
def minEigenSolveObjs (solver : QubitOp → Option Eigenstate) (os : List QuboObj) (left : Option QP) (p : QP) :
    Except Err Result × List QuboObj :=
  if (quboMsg p).length > 0 then (.error .optimization, os)
  else
    let r := convertObjs os left p
    match r.1 with
    | .error e => (.error e, r.2)
    | .ok q =>
      match q.toIsing with
      | .error e => (.error e, r.2)
      | .ok (op, _) => (solveInternal solver op q p (r.2.map QuboObj.interpret), r.2)

end Verif
