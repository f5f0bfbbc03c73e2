import Verif.Program
import Verif.Inputs

/-!
# Encoding integer variables with binary variables

Models `converters/integer_to_binary.py` (`IntegerToBinary`).
-/

namespace Verif

/-- `coeffs` in `_convert_var` (`integer_to_binary.py:106-110`) for `var_range = r`.
`int(np.log2(r))` is the exact integer part (towards zero) of the logarithm; simplification: the rounding of
`np.log2` is not modelled; it makes no difference for integer ranges below `2^48` (`C88_exact`).  `r = 0` gives `int(-inf)`: OverflowError; a negative range
cannot occur. -/
def encodeCoeffs (r : ℚ) : Except Err (List ℚ) :=
  if r ≤ 0 then .error .overflowError
  else if r < 1 then .ok [r - (1 / 2 ^ Nat.log2 (1 / r).floor.toNat - 1)]
  else
    let power := Nat.log2 r.floor.toNat
    .ok (((List.range power).map fun i => (2 : ℚ) ^ i) ++ [r - (2 ^ power - 1)])

/-- `_delimiter` (`integer_to_binary.py:49`). -/
def delim : String := "@"

/-- `_convert_var` (`integer_to_binary.py:103-111`). -/
def convertVar (name : String) (lb ub : ℚ) : Except Err (List (String × ℚ)) :=
  match encodeCoeffs (ub - lb) with
  | .error e => .error e
  | .ok cs => .ok (cs.zipIdx.map fun p => (name ++ delim ++ toString p.2, p.1))

/-- `self._conv` (`integer_to_binary.py:54`), keyed by the name of the variable.  Simplification: Python keys
by object identity; entries left from an earlier `convert` are not modelled here; see `ObjConv` in `Verif/Reuse.lean` and C72. -/
abbrev Conv := Assoc String (List (String × ℚ))

/-- `for (var_name, _) in new_vars: self._dst.binary_var(var_name)` (`integer_to_binary.py:83-84`). -/
def addBins : List (String × ℚ) → QP → Except Err QP
  | [], dst => .ok dst
  | p :: l, dst =>
    match dst.binaryVar (some p.1) with
    | (.error e, _) => .error e
    | (.ok _, dst) => addBins l dst

/-- Declaration of the variables (`integer_to_binary.py:79-93`).  The `else: raise` branch is unreachable. -/
def i2bVars : List Variable → Conv → QP → Except Err (Conv × QP)
  | [], conv, dst => .ok (conv, dst)
  | x :: l, conv, dst =>
    match x.vartype with
    | .integer =>
      match convertVar x.name x.lb x.ub with
      | .error e => .error e
      | .ok enc =>
        match addBins enc dst with
        | .error e => .error e
        | .ok dst => i2bVars l (Assoc.set conv x.name enc) dst
    | .continuous =>
      match dst.continuousVar x.lb x.ub (some x.name) with
      | (.error e, _) => .error e
      | (.ok _, dst) => i2bVars l conv dst
    | .binary =>
      match dst.binaryVar (some x.name) with
      | (.error e, _) => .error e
      | (.ok _, dst) => i2bVars l conv dst

/-- `_convert_linear_coefficients_dict` (`integer_to_binary.py:113-127`), with the accumulators. -/
def i2bLin (src : QP) (conv : Conv) : Dict String → Dict String → ℚ → Except Err (Dict String × ℚ)
  | [], lin, c => .ok (lin, c)
  | (s, v) :: l, lin, c =>
    match src.getVariable (.name s) with
    | .error e => .error e
    | .ok x =>
      match Assoc.get? conv x.name with
      | some enc => i2bLin src conv l (enc.foldl (fun d p => Assoc.set d p.1 (v * p.2)) lin) (c + v * x.lb)
      | none => i2bLin src conv l (Assoc.set lin x.name v) c

/-- `_convert_quadratic_coefficients_dict` (`integer_to_binary.py:129-164`), with the accumulators. -/
def i2bQuad (src : QP) (conv : Conv) : Dict (String × String) → Dict (String × String) → Dict String → ℚ →
    Except Err (Dict (String × String) × Dict String × ℚ)
  | [], quad, lin, c => .ok (quad, lin, c)
  | ((si, sj), v) :: l, quad, lin, c =>
    match src.getVariable (.name si) with
    | .error e => .error e
    | .ok x =>
      match src.getVariable (.name sj) with
      | .error e => .error e
      | .ok y =>
        match Assoc.get? conv x.name, Assoc.get? conv y.name with
        | some ex, none =>
          i2bQuad src conv l (ex.foldl (fun d p => Assoc.set d (p.1, y.name) (v * p.2)) quad)
            (Dict.add lin y.name (v * x.lb)) c
        | none, some ey =>
          i2bQuad src conv l (ey.foldl (fun d p => Assoc.set d (x.name, p.1) (v * p.2)) quad)
            (Dict.add lin x.name (v * y.lb)) c
        | some ex, some ey =>
          i2bQuad src conv l
            (ex.foldl (fun d p => ey.foldl (fun d q => Assoc.set d (p.1, q.1) (v * p.2 * q.2)) d) quad)
            (ey.foldl (fun d q => Dict.add d q.1 (v * x.lb))
              (ex.foldl (fun d p => Dict.add d p.1 (v * y.lb)) lin))
            (c + v * x.lb * y.lb)
        | none, none => i2bQuad src conv l (Assoc.set quad (x.name, y.name) v) lin c

/-- The objective part of `_substitute_int_var` (`integer_to_binary.py:168-183`). -/
def i2bObjective (src : QP) (conv : Conv) (dst : QP) : Except Err QP :=
  match i2bLin src conv (src.objective.linear.toDictNames src.vars) [] 0 with
  | .error e => .error e
  | .ok (lin, lc) =>
    match i2bQuad src conv (src.objective.quadratic.toDictNames src.vars) [] [] 0 with
    | .error e => .error e
    | .ok (quad, ql, qc) =>
      match dst.setObjective src.objective.sense (src.objective.constant + lc + qc)
        (linNames (dokPlus lin ql)) (quadNames quad) with
      | (.error e, _) => .error e
      | (.ok _, dst) => .ok dst

/-- The linear constraints (`integer_to_binary.py:186-192`). -/
def i2bLins (src : QP) (conv : Conv) : List LinCst → QP → Except Err QP
  | [], dst => .ok dst
  | k :: ks, dst =>
    match i2bLin src conv (k.linear.toDictNames src.vars) [] 0 with
    | .error e => .error e
    | .ok (lin, c) =>
      match dst.linearConstraint (linNames lin) (.sense k.sense) (k.rhs - c) (some k.name) with
      | (.error e, _) => .error e
      | (.ok _, dst) => i2bLins src conv ks dst

/-- The quadratic constraints (`integer_to_binary.py:195-213`). -/
def i2bQuads (src : QP) (conv : Conv) : List QuadCst → QP → Except Err QP
  | [], dst => .ok dst
  | k :: ks, dst =>
    match i2bLin src conv (k.linear.toDictNames src.vars) [] 0 with
    | .error e => .error e
    | .ok (lin, lc) =>
      match i2bQuad src conv (k.quadratic.toDictNames src.vars) [] [] 0 with
      | .error e => .error e
      | .ok (quad, ql, qc) =>
        match dst.quadraticConstraint (linNames (dokPlus lin ql)) (quadNames quad) (.sense k.sense)
          (k.rhs - (lc + qc)) (some k.name) with
        | (.error e, _) => .error e
        | (.ok _, dst) => i2bQuads src conv ks dst

/-- State of an `IntegerToBinary` object after `convert`. -/
structure I2B where
  src : QP
  dst : QP
  conv : Conv
  deriving DecidableEq

/-- `get_num_integer_vars` (`quadratic_program.py:588-594`). -/
def QP.numIntegerVars (p : QP) : Nat := (p.vars.filter fun v => v.vartype = .integer).length

/-- `convert` (`integer_to_binary.py:57-101`); the returned program is `dst`. -/
def QP.intToBin (src : QP) : Except Err I2B :=
  if src.numIntegerVars > 0 then
    match i2bVars src.vars [] (QP.empty src.name) with
    | .error e => .error e
    | .ok (conv, dst) =>
      match i2bObjective src conv dst with
      | .error e => .error e
      | .ok dst =>
        match i2bLins src conv src.lins dst with
        | .error e => .error e
        | .ok dst =>
          match i2bQuads src conv src.quads dst with
          | .error e => .error e
          | .ok dst => .ok ⟨src, dst, conv⟩
  else .ok ⟨src, src, []⟩

/-- `sol = {var.name: x[i] for i, var in enumerate(variables)}` (`integer_to_binary.py:226`), entries in order
of creation.  A missing coordinate is an IndexError. -/
def solDict (vars : List Variable) (x : List ℚ) : Except Err (Assoc String ℚ) :=
  if x.length < vars.length then .error .indexError
  else .ok (vars.zipIdx.foldl (fun d p => Assoc.set d p.1.name (pt x p.2)) [])

/-- `sol[name]`. -/
def lookupSol (sol : Assoc String ℚ) (s : String) : Except Err ℚ :=
  match Assoc.get? sol s with | some v => .ok v | none => .error .keyError

/-- `sum(sol[aux] * coef for aux, coef in enc)` (`integer_to_binary.py:230`). -/
def decodeSum (sol : Assoc String ℚ) : List (String × ℚ) → Except Err ℚ
  | [] => .ok 0
  | p :: l =>
    match lookupSol sol p.1 with
    | .error e => .error e
    | .ok v => match decodeSum sol l with | .error e => .error e | .ok s => .ok (v * p.2 + s)

/-- The loop of `interpret` (`integer_to_binary.py:228-232`). -/
def i2bInterpretVars (conv : Conv) (sol : Assoc String ℚ) : List Variable → Except Err (List ℚ)
  | [] => .ok []
  | v :: l =>
    match (match Assoc.get? conv v.name with
      | some enc => (match decodeSum sol enc with | .error e => .error e | .ok s => .ok (s + v.lb))
      | none => lookupSol sol v.name : Except Err ℚ) with
    | .error e => .error e
    | .ok a => match i2bInterpretVars conv sol l with | .error e => .error e | .ok r => .ok (a :: r)

/-- `interpret` (`integer_to_binary.py:215-233`). -/
def I2B.interpret (c : I2B) (x : List ℚ) : Except Err (List ℚ) :=
  match solDict c.dst.vars x with
  | .error e => .error e
  | .ok sol => i2bInterpretVars c.conv sol c.src.vars

end Verif
