import Verif.Program
import Verif.Inputs

/-!
# Substitution of varSubs

Models `SubstituteVariables` (`problems/quadratic_program.py:1512-1790`), the implementation of
`QuadraticProgram.substitute_variables`.
-/

namespace Verif

/-- `SubstituteVariables.CONST` (`quadratic_program.py:1516`). -/
def CONST : String := "__CONSTANT__"

/-- The table `_subs`: variable name to (`CONST`, value) or (other name, coefficient). -/
abbrev Subs := Assoc String (String × ℚ)

/-- First loop of `_subs_dict` (`quadratic_program.py:1596-1604`). -/
def subsConstants (src : QP) : List (Key × ℚ) → Subs → Except Err Subs
  | [], subs => .ok subs
  | (i, v) :: l, subs =>
    match src.getVariable i with
    | .error e => .error e
    | .ok vi =>
      if Assoc.has subs vi.name then .error .optimization
      else subsConstants src l (Assoc.set subs vi.name (CONST, v))

/-- Second loop of `_subs_dict` (`quadratic_program.py:1606-1628`). -/
def subsVariables (src : QP) : List (Key × Key × ℚ) → Subs → Except Err Subs
  | [], subs => .ok subs
  | (i, j, v) :: l, subs =>
    if v = 0 then .error .optimization
    else
      match src.getVariable i with
      | .error e => .error e
      | .ok vi =>
        match src.getVariable j with
        | .error e => .error e
        | .ok vj =>
          if vi.name = vj.name then .error .optimization
          else if Assoc.has subs vi.name then .error .optimization
          else if Assoc.has subs vj.name then .error .optimization
          else subsVariables src l (Assoc.set subs vi.name (vj.name, v))

/-- `_subs_dict` (`quadratic_program.py:1593-1630`). -/
def subsDict (src : QP) (constants : List (Key × ℚ)) (varSubs : List (Key × Key × ℚ)) :
    Except Err Subs :=
  match subsConstants src constants [] with
  | .error e => .error e
  | .ok subs => subsVariables src varSubs subs

/-- Copying the variables that are not replaced (`quadratic_program.py:1635-1641`). -/
def copyVars (subs : Subs) : List Variable → QP → Except Err QP
  | [], dst => .ok dst
  | v :: vs, dst =>
    if Assoc.has subs v.name then copyVars subs vs dst
    else
      match dst.addVariable v.lb v.ub v.vartype (some v.name) with
      | (.error e, _) => .error e
      | (.ok _, dst) => copyVars subs vs dst

/-- `new_lb_i`, `new_ub_i` (`quadratic_program.py:1660-1667`). -/
def scaleBound (b v : ℚ) : ℚ :=
  if |b| < INFINITY then b / v else if v > 0 then b else -b

/-- Tightening the bounds of the replacing variables (`quadratic_program.py:1643-1676`).  The flag is
`feasible`. -/
def adjustBounds (src : QP) : Subs → QP → Bool → Except Err (QP × Bool)
  | [], dst, feas => .ok (dst, feas)
  | (i, j, v) :: l, dst, feas =>
    match src.getVariable (.name i) with
    | .error e => .error e
    | .ok vi =>
      if j = CONST then adjustBounds src l dst (feas && decide (vi.lb ≤ v ∧ v ≤ vi.ub))
      else if v = 0 then .error .optimization
      else
        match Assoc.get? dst.varsIndex j with
        | none => .error .keyError
        | some k =>
          match dst.vars[k]? with
          | none => .error .indexError
          | some vj =>
            let lo := if v > 0 then max vj.lb (scaleBound vi.lb v) else max vj.lb (scaleBound vi.ub v)
            let hi := if v > 0 then min vj.ub (scaleBound vi.ub v) else min vj.ub (scaleBound vi.lb v)
            match dst.setLowerbound k lo with
            | (.error e, _) => .error e
            | (.ok _, dst) =>
              match dst.setUpperbound k hi with
              | (.error e, _) => .error e
              | (.ok _, dst) => adjustBounds src l dst feas

/-- `_variables` (`quadratic_program.py:1632-1687`). -/
def substVars (src : QP) (subs : Subs) (dst : QP) : Except Err (QP × Bool) :=
  match copyVars subs src.vars dst with
  | .error e => .error e
  | .ok dst =>
    match adjustBounds src subs dst true with
    | .error e => .error e
    | .ok (dst, feas) => .ok (dst, feas && dst.vars.all fun v => decide (v.lb ≤ v.ub))

/-- `self._subs[i] if i in self._subs else (i, 1)` (`quadratic_program.py:1695, 1714-1715`). -/
def repl (subs : Subs) (i : String) : String × ℚ := (Assoc.get? subs i).getD (i, 1)

/-- Loop body of `_linear_expression` (`quadratic_program.py:1694-1701`). -/
def substLinStep (subs : Subs) (st : List ℚ × Dict String) (p : String × ℚ) : List ℚ × Dict String :=
  let r := repl subs p.1
  let prod := p.2 * r.2
  if r.1 = CONST then (st.1 ++ [prod], st.2) else (st.1, Dict.add st.2 r.1 prod)

/-- `_linear_expression` (`quadratic_program.py:1689-1705`). -/
def substLinear (src dst : QP) (subs : Subs) (e : LinExpr) : Except Err (List ℚ × LinExpr) :=
  let st := (e.toDictNames src.vars).foldl (substLinStep subs) ([], [])
  match LinExpr.ofInput dst.varsIndex dst.numVars (linNames st.2) with
  | .error er => .error er
  | .ok l => .ok (st.1, l)

/-- State of the loop of `_quadratic_expression`: constants, linear and quadratic dictionaries. -/
abbrev SubstQuadState := List ℚ × Dict String × Dict (String × String)

/-- Loop body of `_quadratic_expression` (`quadratic_program.py:1713-1723`). -/
def substQuadStep (subs : Subs) (st : SubstQuadState) (p : (String × String) × ℚ) : SubstQuadState :=
  let ri := repl subs p.1.1
  let rj := repl subs p.1.2
  let prod := p.2 * ri.2 * rj.2
  if ri.1 ≠ CONST then
    if rj.1 ≠ CONST then (st.1, st.2.1, Dict.add st.2.2 (ri.1, rj.1) prod)
    else (st.1, Dict.add st.2.1 ri.1 prod, st.2.2)
  else
    if rj.1 ≠ CONST then (st.1, Dict.add st.2.1 rj.1 prod, st.2.2)
    else (st.1 ++ [prod], st.2.1, st.2.2)

/-- `_quadratic_expression` (`quadratic_program.py:1707-1730`). -/
def substQuadratic (src dst : QP) (subs : Subs) (e : QuadExpr) :
    Except Err (List ℚ × LinExpr × QuadExpr) :=
  let st := (e.toDictNames src.vars).foldl (substQuadStep subs) ([], [], [])
  match LinExpr.ofInput dst.varsIndex dst.numVars (linNames st.2.1) with
  | .error er => .error er
  | .ok l =>
    match QuadExpr.ofInput dst.varsIndex dst.numVars (quadNames st.2.2) with
    | .error er => .error er
    | .ok q => .ok (st.1, l, q)

/-- `_objective` (`quadratic_program.py:1732-1743`); `fsum` is the exact sum. -/
def substObjective (src : QP) (subs : Subs) (dst : QP) : Except Err QP :=
  match substLinear src dst subs src.objective.linear with
  | .error e => .error e
  | .ok (c1, l1) =>
    match substQuadratic src dst subs src.objective.quadratic with
    | .error e => .error e
    | .ok (c2, l2, q) =>
      let constant := ([src.objective.constant] ++ c1 ++ c2).sum
      let linear : LinExpr := ⟨dst.numVars, dokPlus l1.coeffs l2.coeffs⟩
      match dst.setObjective src.objective.sense constant (.sparse linear) (.sparse q) with
      | (.error e, _) => .error e
      | (.ok _, dst) => .ok dst

/-- `_feasible` (`quadratic_program.py:1567-1582`): `0 sense rhs`. -/
def feasibleZero : Sense → ℚ → Bool
  | .eq, rhs => decide (0 = rhs)
  | .le, rhs => decide (0 ≤ rhs)
  | .ge, rhs => decide (0 ≥ rhs)

/-- `_linear_constraints` (`quadratic_program.py:1745-1761`). -/
def substLins (src : QP) (subs : Subs) : List LinCst → QP → Bool → Except Err (QP × Bool)
  | [], dst, feas => .ok (dst, feas)
  | c :: cs, dst, feas =>
    match substLinear src dst subs c.linear with
    | .error e => .error e
    | .ok (const, l) =>
      let rhs := -(([-c.rhs] ++ const).sum)
      if l.coeffs.length > 0 then
        match dst.linearConstraint (.sparse l) (.sense c.sense) rhs (some c.name) with
        | (.error e, _) => .error e
        | (.ok _, dst) => substLins src subs cs dst feas
      else substLins src subs cs dst (feas && feasibleZero c.sense rhs)

/-- `while name in lin_names: name = "_" + name` (`quadratic_program.py:1780-1782`); fuel as in `findName`. -/
def underscoreName (names : List String) : Nat → String → String
  | 0, s => s
  | fuel + 1, s => if s ∈ names then underscoreName names fuel ("_" ++ s) else s

/-- `_quadratic_constraints` (`quadratic_program.py:1763-1790`). -/
def substQuads (src : QP) (subs : Subs) : List QuadCst → QP → Bool → Except Err (QP × Bool)
  | [], dst, feas => .ok (dst, feas)
  | c :: cs, dst, feas =>
    match substLinear src dst subs c.linear with
    | .error e => .error e
    | .ok (c1, l1) =>
      match substQuadratic src dst subs c.quadratic with
      | .error e => .error e
      | .ok (c2, l2, q) =>
        let rhs := -(([-c.rhs] ++ c1 ++ c2).sum)
        let linear : LinExpr := ⟨dst.numVars, dokPlus l1.coeffs l2.coeffs⟩
        if q.coeffs.length > 0 then
          match dst.quadraticConstraint (.sparse linear) (.sparse q) (.sense c.sense) rhs (some c.name) with
          | (.error e, _) => .error e
          | (.ok _, dst) => substQuads src subs cs dst feas
        else if linear.coeffs.length > 0 then
          let names := dst.lins.map LinCst.name
          let name := underscoreName names (names.length + 1) c.name
          match dst.linearConstraint (.sparse linear) (.sense c.sense) rhs (some name) with
          | (.error e, _) => .error e
          | (.ok _, dst) => substQuads src subs cs dst feas
        else substQuads src subs cs dst (feas && feasibleZero c.sense rhs)

/-- `substitute_variables` (`quadratic_program.py:1523-1565`, and `1205-1232` of the program class, which
delegates to it).  `None` arguments are empty lists. -/
def QP.substitute (src : QP) (constants : List (Key × ℚ)) (varSubs : List (Key × Key × ℚ)) :
    Except Err QP :=
  match subsDict src constants varSubs with
  | .error e => .error e
  | .ok subs =>
    match substVars src subs (QP.empty src.name) with
    | .error e => .error e
    | .ok (dst, f1) =>
      match substObjective src subs dst with
      | .error e => .error e
      | .ok dst =>
        match substLins src subs src.lins dst true with
        | .error e => .error e
        | .ok (dst, f3) =>
          match substQuads src subs src.quads dst true with
          | .error e => .error e
          | .ok (dst, f4) =>
            .ok { dst with status := if f1 && f3 && f4 then .valid else .infeasible }

end Verif
