import Verif.Penalty

/-!
# Conversion to a QUBO

Models `converters/quadratic_program_to_qubo.py` (`QuadraticProgramToQubo`).
-/

namespace Verif

/-- `get_compatibility_msg` (`quadratic_program_to_qubo.py:96-136`).  All coefficients are `float` values (numpy matrices
of floats), so the test `isinstance(coef, float) and not coef.is_integer()` is `anyFloat`. -/
def quboMsg (p : QP) : String :=
  let msg := ""
  let msg := if (p.vars.filter fun v => v.vartype == .continuous).length > 0
    then msg ++ "Continuous variables are not supported! " else msg
  let msg := if p.quads.length > 0 then msg ++ "Quadratic constraints are not supported. " else msg
  let linOK := p.lins.all fun c => !anyFloat c.linear.coeffs.values
  let quadOK := p.quads.all fun c => !(anyFloat (c.quadratic.toDict false).values || anyFloat c.linear.coeffs.values)
  if !(linOK && quadOK) then msg ++ "Can not convert inequality constraints to equality constraint because " ++
    "                    float coefficients are in constraints. " else msg

/-- The state of the converter after `convert`: the results of the three stages, and the penalty. -/
structure QuboState where
  /-- the program given to `convert` (`_src` of the first stage) -/
  src : QP
  /-- result of `InequalityToEquality` -/
  eqs : QP
  /-- state of `IntegerToBinary` -/
  i2b : I2B
  /-- the QUBO -/
  dst : QP
  /-- penalty used -/
  pen : ℚ
deriving DecidableEq

/-- `convert` (`quadratic_program_to_qubo.py:51-79`) with the penalty given to the constructor (36-49). -/
def QP.toQubo (penalty : Option ℚ) (src : QP) : Except Err QuboState :=
  if (quboMsg src).length > 0 then .error .optimization
  else match src.ineqToEq .integer with
    | .error e => .error e
    | .ok eqs =>
      match eqs.intToBin with
      | .error e => .error e
      | .ok i2b =>
        match i2b.dst.toPenalty penalty with
        | .error e => .error e
        | .ok (dst, pen) => .ok ⟨src, eqs, i2b, dst, pen⟩

/-- `interpret` (`quadratic_program_to_qubo.py:81-93`). -/
def QuboState.interpret (st : QuboState) (x : List ℚ) : Except Err (List ℚ) :=
  match penInterpret st.i2b.dst x with
  | .error e => .error e
  | .ok x =>
    match st.i2b.interpret x with
    | .error e => .error e
    | .ok x => ineqInterpret st.src st.eqs x

/-- `is_compatible` (`quadratic_program_to_qubo.py:138-147`). -/
def quboCompatible (p : QP) : Bool := (quboMsg p).length == 0

end Verif
