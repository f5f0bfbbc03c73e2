import Verif.Program
import Verif.Inputs
import Verif.IntToBin

/-!
# Turning inequalities into equalities with slack variables

Models `converters/inequality_to_equality.py` (`InequalityToEquality`).
-/

namespace Verif

/-- `mode` (`inequality_to_equality.py:44-57`); `other` stands for every other string. -/
inductive SlackMode where
  | integer
  | continuous
  | auto
  | other
  deriving DecidableEq, Repr

/-- `_contains_any_float_value` (`inequality_to_equality.py:395-406`): "float and not an integer" is "not an
integer" for rationals. -/
def anyFloat (vals : List ℚ) : Bool := vals.any fun v => decide (v.den ≠ 1)

/-- The values of a dictionary. -/
def Dict.values {κ : Type} (d : Dict κ) : List ℚ := d.map Prod.snd

/-- `_calc_linear_bounds` (`inequality_to_equality.py:342-348`), with the accumulators. -/
def calcLinBounds (src : QP) : Dict String → ℚ × ℚ → Except Err (ℚ × ℚ)
  | [], acc => .ok acc
  | (s, v) :: l, acc =>
    match src.getVariable (.name s) with
    | .error e => .error e
    | .ok x => calcLinBounds src l (acc.1 + min (x.lb * v) (x.ub * v), acc.2 + max (x.lb * v) (x.ub * v))

/-- The loop of `_calc_quadratic_bounds` (`inequality_to_equality.py:358-373`), with the accumulators. -/
def calcQuadBoundsLoop (src : QP) : Dict (String × String) → ℚ × ℚ → Except Err (ℚ × ℚ)
  | [], acc => .ok acc
  | ((si, sj), v) :: l, acc =>
    match src.getVariable (.name si) with
    | .error e => .error e
    | .ok x =>
      match src.getVariable (.name sj) with
      | .error e => .error e
      | .ok y =>
        calcQuadBoundsLoop src l
          (acc.1 + min (min (min (x.lb * y.lb * v) (x.lb * y.ub * v)) (x.ub * y.lb * v)) (x.ub * y.ub * v),
           acc.2 + max (max (max (x.lb * y.lb * v) (x.lb * y.ub * v)) (x.ub * y.lb * v)) (x.ub * y.ub * v))

/-- `_calc_quadratic_bounds` (`inequality_to_equality.py:350-374`). -/
def calcQuadBounds (src : QP) (lin : Dict String) (quad : Dict (String × String)) : Except Err (ℚ × ℚ) :=
  match calcLinBounds src lin (0, 0) with
  | .error e => .error e
  | .ok acc => calcQuadBoundsLoop src quad acc

/-- The part common to the four `_add_..._slack_var_...` functions
(`inequality_to_equality.py:199-215, 227-241, 278-295, 311-327`): add the slack variable if its upper bound is
positive and return its name and sign. -/
def slackVar (dst : QP) (t : VarType) (slackName : String) (sense : Sense) (rhs lhsLb lhsUb : ℚ) :
    Except Err (Option (String × ℚ) × QP) :=
  match sense with
  | .le =>
    if rhs - lhsLb > 0 then
      match dst.addVariable 0 (rhs - lhsLb) t (some slackName) with
      | (.error e, _) => .error e
      | (.ok _, dst) => .ok (some (slackName, 1), dst)
    else .ok (none, dst)
  | .ge =>
    if lhsUb - rhs > 0 then
      match dst.addVariable 0 (lhsUb - rhs) t (some slackName) with
      | (.error e, _) => .error e
      | (.ok _, dst) => .ok (some (slackName, -1), dst)
    else .ok (none, dst)
  | .eq => .error .optimization

/-- `new_linear[slack_name] = sign` if a variable was added (`inequality_to_equality.py:218-220`). -/
def withSlack (lin : Dict String) : Option (String × ℚ) → Dict String
  | none => lin
  | some (s, sign) => Assoc.set lin s sign

/-- Rounding of the right-hand side for integer slacks (`inequality_to_equality.py:188-193`). -/
def roundRhs : Sense → ℚ → ℚ
  | .le, r => r.floor
  | .ge, r => r.ceil
  | .eq, r => r

/-- `_add_integer_slack_var_linear_constraint` (`inequality_to_equality.py:180-221`). -/
def intSlackLin (src dst : QP) (lin : Dict String) (sense : Sense) (rhs : ℚ) (name : String) : Except Err QP :=
  if anyFloat lin.values then .error .optimization
  else
    match calcLinBounds src lin (0, 0) with
    | .error e => .error e
    | .ok (lb, ub) =>
      match slackVar dst .integer (name ++ delim ++ "int_slack") sense (roundRhs sense rhs) lb ub with
      | .error e => .error e
      | .ok (o, dst) =>
        match dst.linearConstraint (linNames (withSlack lin o)) (.str "==") (roundRhs sense rhs) (some name) with
        | (.error e, _) => .error e
        | (.ok _, dst) => .ok dst

/-- `_add_continuous_slack_var_linear_constraint` (`inequality_to_equality.py:223-247`). -/
def contSlackLin (src dst : QP) (lin : Dict String) (sense : Sense) (rhs : ℚ) (name : String) : Except Err QP :=
  match calcLinBounds src lin (0, 0) with
  | .error e => .error e
  | .ok (lb, ub) =>
    match slackVar dst .continuous (name ++ delim ++ "continuous_slack") sense rhs lb ub with
    | .error e => .error e
    | .ok (o, dst) =>
      match dst.linearConstraint (linNames (withSlack lin o)) (.str "==") rhs (some name) with
      | (.error e, _) => .error e
      | (.ok _, dst) => .ok dst

/-- `_add_auto_slack_var_linear_constraint` (`inequality_to_equality.py:249-255`). -/
def autoSlackLin (src dst : QP) (lin : Dict String) (sense : Sense) (rhs : ℚ) (name : String) : Except Err QP :=
  if anyFloat lin.values then contSlackLin src dst lin sense rhs name
  else intSlackLin src dst lin sense rhs name

/-- `_add_integer_slack_var_quadratic_constraint` (`inequality_to_equality.py:257-301`). -/
def intSlackQuad (src dst : QP) (lin : Dict String) (quad : Dict (String × String)) (sense : Sense) (rhs : ℚ)
    (name : String) : Except Err QP :=
  if anyFloat lin.values || anyFloat quad.values then .error .optimization
  else
    match calcQuadBounds src lin quad with
    | .error e => .error e
    | .ok (lb, ub) =>
      match slackVar dst .integer (name ++ delim ++ "int_slack") sense (roundRhs sense rhs) lb ub with
      | .error e => .error e
      | .ok (o, dst) =>
        match dst.quadraticConstraint (linNames (withSlack lin o)) (quadNames quad) (.str "==")
          (roundRhs sense rhs) (some name) with
        | (.error e, _) => .error e
        | (.ok _, dst) => .ok dst

/-- `_add_continuous_slack_var_quadratic_constraint` (`inequality_to_equality.py:303-329`). -/
def contSlackQuad (src dst : QP) (lin : Dict String) (quad : Dict (String × String)) (sense : Sense) (rhs : ℚ)
    (name : String) : Except Err QP :=
  match calcQuadBounds src lin quad with
  | .error e => .error e
  | .ok (lb, ub) =>
    match slackVar dst .continuous (name ++ delim ++ "continuous_slack") sense rhs lb ub with
    | .error e => .error e
    | .ok (o, dst) =>
      match dst.quadraticConstraint (linNames (withSlack lin o)) (quadNames quad) (.str "==") rhs (some name) with
      | (.error e, _) => .error e
      | (.ok _, dst) => .ok dst

/-- `_add_auto_slack_var_quadratic_constraint` (`inequality_to_equality.py:331-340`). -/
def autoSlackQuad (src dst : QP) (lin : Dict String) (quad : Dict (String × String)) (sense : Sense) (rhs : ℚ)
    (name : String) : Except Err QP :=
  if anyFloat lin.values || anyFloat quad.values then contSlackQuad src dst lin quad sense rhs name
  else intSlackQuad src dst lin quad sense rhs name

/-- Copy of the variables (`inequality_to_equality.py:79-90`; the same loop, in another order of the cases, is
`linear_equality_to_penalty.py:71-79`). -/
def copyAllVars : List Variable → QP → Except Err QP
  | [], dst => .ok dst
  | x :: l, dst =>
    match (match x.vartype with
      | .binary => dst.binaryVar (some x.name)
      | .integer => dst.integerVar x.lb x.ub (some x.name)
      | .continuous => dst.continuousVar x.lb x.ub (some x.name)) with
    | (.error e, _) => .error e
    | (.ok _, dst) => copyAllVars l dst

/-- One linear constraint (`inequality_to_equality.py:103-129`). -/
def i2eLinOne (mode : SlackMode) (src dst : QP) (k : LinCst) : Except Err QP :=
  let lin := k.linear.toDictNames src.vars
  match k.sense with
  | .eq =>
    match dst.linearConstraint (linNames lin) (.sense k.sense) k.rhs (some k.name) with
    | (.error e, _) => .error e
    | (.ok _, dst) => .ok dst
  | _ =>
    match mode with
    | .integer => intSlackLin src dst lin k.sense k.rhs k.name
    | .continuous => contSlackLin src dst lin k.sense k.rhs k.name
    | .auto => autoSlackLin src dst lin k.sense k.rhs k.name
    | .other => .error .optimization

/-- One quadratic constraint (`inequality_to_equality.py:133-176`). -/
def i2eQuadOne (mode : SlackMode) (src dst : QP) (k : QuadCst) : Except Err QP :=
  let lin := k.linear.toDictNames src.vars
  let quad := k.quadratic.toDictNames src.vars
  match k.sense with
  | .eq =>
    match dst.quadraticConstraint (linNames lin) (quadNames quad) (.sense k.sense) k.rhs (some k.name) with
    | (.error e, _) => .error e
    | (.ok _, dst) => .ok dst
  | _ =>
    match mode with
    | .integer => intSlackQuad src dst lin quad k.sense k.rhs k.name
    | .continuous => contSlackQuad src dst lin quad k.sense k.rhs k.name
    | .auto => autoSlackQuad src dst lin quad k.sense k.rhs k.name
    | .other => .error .optimization

/-- The loop over the linear constraints (`inequality_to_equality.py:102-129`). -/
def i2eLins (mode : SlackMode) (src : QP) : List LinCst → QP → Except Err QP
  | [], dst => .ok dst
  | k :: ks, dst =>
    match i2eLinOne mode src dst k with
    | .error e => .error e
    | .ok dst => i2eLins mode src ks dst

/-- The loop over the quadratic constraints (`inequality_to_equality.py:132-176`). -/
def i2eQuads (mode : SlackMode) (src : QP) : List QuadCst → QP → Except Err QP
  | [], dst => .ok dst
  | k :: ks, dst =>
    match i2eQuadOne mode src dst k with
    | .error e => .error e
    | .ok dst => i2eQuads mode src ks dst

/-- `convert` (`inequality_to_equality.py:59-178`). -/
def QP.ineqToEq (mode : SlackMode) (src : QP) : Except Err QP :=
  match copyAllVars src.vars (QP.empty src.name) with
  | .error e => .error e
  | .ok dst =>
    match dst.setObjective src.objective.sense src.objective.constant
      (linNames (src.objective.linear.toDictNames src.vars))
      (quadNames (src.objective.quadratic.toDictNames src.vars)) with
    | (.error e, _) => .error e
    | (.ok _, dst) =>
      match i2eLins mode src src.lins dst with
      | .error e => .error e
      | .ok dst => i2eQuads mode src src.quads dst

/-- The loop of `interpret` (`inequality_to_equality.py:391-392`). -/
def lookupVars (sol : Assoc String ℚ) : List Variable → Except Err (List ℚ)
  | [] => .ok []
  | v :: l =>
    match lookupSol sol v.name with
    | .error e => .error e
    | .ok a => match lookupVars sol l with | .error e => .error e | .ok r => .ok (a :: r)

/-- `interpret` (`inequality_to_equality.py:376-393`) after `convert` of `src` gave `dst`. -/
def ineqInterpret (src dst : QP) (x : List ℚ) : Except Err (List ℚ) :=
  match solDict dst.vars x with
  | .error e => .error e
  | .ok sol => lookupVars sol src.vars

end Verif
