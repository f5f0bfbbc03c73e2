import Verif.FloatPenalty
import Verif.Qubo

/-!
# The conversion to a QUBO with floating point numbers

The stages of `converters/quadratic_program_to_qubo.py` with a rounding `fl` after every operation, in the style of
`Verif/FloatEval.lean`: `converters/inequality_to_equality.py` (mode "integer"), `converters/integer_to_binary.py` and
`converters/linear_equality_to_penalty.py`.  Quadratic constraints are left out: `convert` refuses them before the first
stage.
-/

namespace Verif

/-- `_calc_linear_bounds` (`inequality_to_equality.py:342-348`) with rounding. -/
def calcLinBoundsFl (fl : ℚ → ℚ) (src : QP) : Dict String → ℚ × ℚ → Except Err (ℚ × ℚ)
  | [], acc => .ok acc
  | (s, v) :: l, acc =>
    match src.getVariable (.name s) with
    | .error e => .error e
    | .ok x => calcLinBoundsFl fl src l
        (fl (acc.1 + min (fl (x.lb * v)) (fl (x.ub * v))), fl (acc.2 + max (fl (x.lb * v)) (fl (x.ub * v))))

/-- `slackVar` (`inequality_to_equality.py:199-215`) with rounding. -/
def slackVarFl (fl : ℚ → ℚ) (dst : QP) (t : VarType) (slackName : String) (sense : Sense) (rhs lhsLb lhsUb : ℚ) :
    Except Err (Option (String × ℚ) × QP) :=
  match sense with
  | .le =>
    if fl (rhs - lhsLb) > 0 then
      match dst.addVariable 0 (fl (rhs - lhsLb)) t (some slackName) with
      | (.error e, _) => .error e
      | (.ok _, dst) => .ok (some (slackName, 1), dst)
    else .ok (none, dst)
  | .ge =>
    if fl (lhsUb - rhs) > 0 then
      match dst.addVariable 0 (fl (lhsUb - rhs)) t (some slackName) with
      | (.error e, _) => .error e
      | (.ok _, dst) => .ok (some (slackName, -1), dst)
    else .ok (none, dst)
  | .eq => .error .optimization

/-- `_add_integer_slack_var_linear_constraint` (`inequality_to_equality.py:180-221`) with rounding; `math.floor` and
`math.ceil` give exact integers. -/
def intSlackLinFl (fl : ℚ → ℚ) (src dst : QP) (lin : Dict String) (sense : Sense) (rhs : ℚ) (name : String) :
    Except Err QP :=
  if anyFloat lin.values then .error .optimization
  else
    match calcLinBoundsFl fl src lin (0, 0) with
    | .error e => .error e
    | .ok (lb, ub) =>
      match slackVarFl fl dst .integer (name ++ delim ++ "int_slack") sense (roundRhs sense rhs) lb ub with
      | .error e => .error e
      | .ok (o, dst) =>
        match dst.linearConstraint (linNames (withSlack lin o)) (.str "==") (roundRhs sense rhs) (some name) with
        | (.error e, _) => .error e
        | (.ok _, dst) => .ok dst

/-- One linear constraint (`inequality_to_equality.py:103-129`), mode "integer", with rounding. -/
def i2eLinOneFl (fl : ℚ → ℚ) (src dst : QP) (k : LinCst) : Except Err QP :=
  let lin := k.linear.toDictNames src.vars
  match k.sense with
  | .eq =>
    match dst.linearConstraint (linNames lin) (.sense k.sense) k.rhs (some k.name) with
    | (.error e, _) => .error e
    | (.ok _, dst) => .ok dst
  | _ => intSlackLinFl fl src dst lin k.sense k.rhs k.name

/-- The loop over the linear constraints (`inequality_to_equality.py:102-129`) with rounding. -/
def i2eLinsFl (fl : ℚ → ℚ) (src : QP) : List LinCst → QP → Except Err QP
  | [], dst => .ok dst
  | k :: ks, dst =>
    match i2eLinOneFl fl src dst k with
    | .error e => .error e
    | .ok dst => i2eLinsFl fl src ks dst

/-- `convert` (`inequality_to_equality.py:59-178`), mode "integer", with rounding, for programs without quadratic
constraints. -/
def QP.ineqToEqFl (fl : ℚ → ℚ) (src : QP) : Except Err QP :=
  match copyAllVars src.vars (QP.empty src.name) with
  | .error e => .error e
  | .ok dst =>
    match dst.setObjectiveFl fl src.objective.sense src.objective.constant
      ((src.objective.linear.toDictNames src.vars).map fun q => (.name q.1, q.2))
      ((src.objective.quadratic.toDictNames src.vars).map fun q => ((.name q.1.1, .name q.1.2), q.2)) with
    | (.error e, _) => .error e
    | (.ok _, dst) => i2eLinsFl fl src src.lins dst

/-- `coeffs` in `_convert_var` (`integer_to_binary.py:106-110`) for an integer `var_range = r`, where `log2 r` is the floating
point value `np.log2(r)` and `int` cuts off the digits after the point.  `2 ** i` is an exact integer; in the difference the
integer `2 ** power - 1` is first rounded to a float.  `r = 0` is an OverflowError. -/
def encodeCoeffsFl (fl log2 : ℚ → ℚ) (r : ℚ) : Except Err (List ℚ) :=
  if r ≤ 0 then .error .overflowError
  else
    let power := (log2 r).floor.toNat
    .ok (((List.range power).map fun i => (2 : ℚ) ^ i) ++ [fl (r - fl (2 ^ power - 1))])

/-- `_convert_var` (`integer_to_binary.py:103-111`) with rounding. -/
def convertVarFl (fl log2 : ℚ → ℚ) (name : String) (lb ub : ℚ) : Except Err (List (String × ℚ)) :=
  match encodeCoeffsFl fl log2 (fl (ub - lb)) with
  | .error e => .error e
  | .ok cs => .ok (cs.zipIdx.map fun p => (name ++ delim ++ toString p.2, p.1))

/-- Declaration of the variables (`integer_to_binary.py:79-93`) with rounding. -/
def i2bVarsFl (fl log2 : ℚ → ℚ) : List Variable → Conv → QP → Except Err (Conv × QP)
  | [], conv, dst => .ok (conv, dst)
  | x :: l, conv, dst =>
    match x.vartype with
    | .integer =>
      match convertVarFl fl log2 x.name x.lb x.ub with
      | .error e => .error e
      | .ok enc =>
        match addBins enc dst with
        | .error e => .error e
        | .ok dst => i2bVarsFl fl log2 l (Assoc.set conv x.name enc) dst
    | .continuous =>
      match dst.continuousVar x.lb x.ub (some x.name) with
      | (.error e, _) => .error e
      | (.ok _, dst) => i2bVarsFl fl log2 l conv dst
    | .binary =>
      match dst.binaryVar (some x.name) with
      | (.error e, _) => .error e
      | (.ok _, dst) => i2bVarsFl fl log2 l conv dst

/-- `_convert_linear_coefficients_dict` (`integer_to_binary.py:113-127`) with rounding. -/
def i2bLinFl (fl : ℚ → ℚ) (src : QP) (conv : Conv) : Dict String → Dict String → ℚ → Except Err (Dict String × ℚ)
  | [], lin, c => .ok (lin, c)
  | (s, v) :: l, lin, c =>
    match src.getVariable (.name s) with
    | .error e => .error e
    | .ok x =>
      match Assoc.get? conv x.name with
      | some enc => i2bLinFl fl src conv l (enc.foldl (fun d p => Assoc.set d p.1 (fl (v * p.2))) lin)
          (fl (c + fl (v * x.lb)))
      | none => i2bLinFl fl src conv l (Assoc.set lin x.name v) c

/-- `_convert_quadratic_coefficients_dict` (`integer_to_binary.py:129-164`) with rounding. -/
def i2bQuadFl (fl : ℚ → ℚ) (src : QP) (conv : Conv) : Dict (String × String) → Dict (String × String) → Dict String → ℚ →
    Except Err (Dict (String × String) × Dict String × ℚ)
  | [], quad, lin, c => .ok (quad, lin, c)
  | ((si, sj), v) :: l, quad, lin, c =>
    match src.getVariable (.name si) with
    | .error e => .error e
    | .ok x =>
      match src.getVariable (.name sj) with
      | .error e => .error e
      | .ok y =>
        match Assoc.get? conv x.name, Assoc.get? conv y.name with
        | some ex, none =>
          i2bQuadFl fl src conv l (ex.foldl (fun d p => Assoc.set d (p.1, y.name) (fl (v * p.2))) quad)
            (Dict.addFl fl lin y.name (fl (v * x.lb))) c
        | none, some ey =>
          i2bQuadFl fl src conv l (ey.foldl (fun d p => Assoc.set d (x.name, p.1) (fl (v * p.2))) quad)
            (Dict.addFl fl lin x.name (fl (v * y.lb))) c
        | some ex, some ey =>
          i2bQuadFl fl src conv l
            (ex.foldl (fun d p => ey.foldl (fun d q => Assoc.set d (p.1, q.1) (fl (fl (v * p.2) * q.2))) d) quad)
            (ey.foldl (fun d q => Dict.addFl fl d q.1 (fl (v * x.lb)))
              (ex.foldl (fun d p => Dict.addFl fl d p.1 (fl (v * y.lb))) lin))
            (fl (c + fl (fl (v * x.lb) * y.lb)))
        | none, none => i2bQuadFl fl src conv l (Assoc.set quad (x.name, y.name) v) lin c

/-- The objective part of `_substitute_int_var` (`integer_to_binary.py:168-183`) with rounding. -/
def i2bObjectiveFl (fl : ℚ → ℚ) (src : QP) (conv : Conv) (dst : QP) : Except Err QP :=
  match i2bLinFl fl src conv (src.objective.linear.toDictNames src.vars) [] 0 with
  | .error e => .error e
  | .ok (lin, lc) =>
    match i2bQuadFl fl src conv (src.objective.quadratic.toDictNames src.vars) [] [] 0 with
    | .error e => .error e
    | .ok (quad, ql, qc) =>
      match dst.setObjectiveFl fl src.objective.sense (fl (fl (src.objective.constant + lc) + qc))
        ((ql.foldl (fun acc p => Dict.addFl fl acc p.1 p.2) lin).map fun q => (.name q.1, q.2))
        (quad.map fun q => ((.name q.1.1, .name q.1.2), q.2)) with
      | (.error e, _) => .error e
      | (.ok _, dst) => .ok dst

/-- The linear constraints (`integer_to_binary.py:186-192`) with rounding. -/
def i2bLinsFl (fl : ℚ → ℚ) (src : QP) (conv : Conv) : List LinCst → QP → Except Err QP
  | [], dst => .ok dst
  | k :: ks, dst =>
    match i2bLinFl fl src conv (k.linear.toDictNames src.vars) [] 0 with
    | .error e => .error e
    | .ok (lin, c) =>
      match dst.linearConstraint (linNames lin) (.sense k.sense) (fl (k.rhs - c)) (some k.name) with
      | (.error e, _) => .error e
      | (.ok _, dst) => i2bLinsFl fl src conv ks dst

/-- `convert` (`integer_to_binary.py:57-101`) with rounding, for programs without quadratic constraints. -/
def QP.intToBinFl (fl log2 : ℚ → ℚ) (src : QP) : Except Err I2B :=
  if src.numIntegerVars > 0 then
    match i2bVarsFl fl log2 src.vars [] (QP.empty src.name) with
    | .error e => .error e
    | .ok (conv, dst) =>
      match i2bObjectiveFl fl src conv dst with
      | .error e => .error e
      | .ok dst =>
        match i2bLinsFl fl src conv src.lins dst with
        | .error e => .error e
        | .ok dst => .ok ⟨src, dst, conv⟩
  else .ok ⟨src, src, []⟩

/-- `convert` (`quadratic_program_to_qubo.py:51-79`) with rounding. -/
def QP.toQuboFl (fl log2 : ℚ → ℚ) (penalty : Option ℚ) (src : QP) : Except Err QuboState :=
  if (quboMsg src).length > 0 then .error .optimization
  else match src.ineqToEqFl fl with
    | .error e => .error e
    | .ok eqs =>
      match eqs.intToBinFl fl log2 with
      | .error e => .error e
      | .ok i2b =>
        match i2b.dst.toPenaltyFl fl penalty with
        | .error e => .error e
        | .ok (dst, pen) => .ok ⟨src, eqs, i2b, dst, pen⟩

/-- `sum(sol[aux] * coef for aux, coef in enc)` (`integer_to_binary.py:230`) with rounding: Python adds from the left, starting
with zero. -/
def decodeSumFl (fl : ℚ → ℚ) (sol : Assoc String ℚ) : List (String × ℚ) → ℚ → Except Err ℚ
  | [], acc => .ok acc
  | p :: l, acc =>
    match lookupSol sol p.1 with
    | .error e => .error e
    | .ok v => decodeSumFl fl sol l (fl (acc + fl (v * p.2)))

/-- The loop of `interpret` (`integer_to_binary.py:228-232`) with rounding. -/
def i2bInterpretVarsFl (fl : ℚ → ℚ) (conv : Conv) (sol : Assoc String ℚ) : List Variable → Except Err (List ℚ)
  | [] => .ok []
  | v :: l =>
    match (match Assoc.get? conv v.name with
      | some enc => (match decodeSumFl fl sol enc 0 with | .error e => .error e | .ok s => .ok (fl (s + v.lb)))
      | none => lookupSol sol v.name : Except Err ℚ) with
    | .error e => .error e
    | .ok a => match i2bInterpretVarsFl fl conv sol l with | .error e => .error e | .ok r => .ok (a :: r)

/-- `interpret` (`quadratic_program_to_qubo.py:81-93`) with rounding; only the second stage (`integer_to_binary.py:215-233`)
computes. -/
def QuboState.interpretFl (fl : ℚ → ℚ) (st : QuboState) (x : List ℚ) : Except Err (List ℚ) :=
  match penInterpret st.i2b.dst x with
  | .error e => .error e
  | .ok x =>
    match (match solDict st.i2b.dst.vars x with
      | .error e => .error e
      | .ok sol => i2bInterpretVarsFl fl st.i2b.conv sol st.i2b.src.vars : Except Err (List ℚ)) with
    | .error e => .error e
    | .ok x => ineqInterpret st.src st.eqs x

end Verif
