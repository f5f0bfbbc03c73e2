import Verif.Program

/-!
# Batches of variables
-/

namespace Verif

/-- `_var_dict` (`quadratic_program.py:233-269`): `dict(zip(names, variables))`.  The names are those of the variables. -/
def QP.varDict (p : QP) (keys : Keys) (lb ub : ℚ) (t : VarType) (name : Option String) (fmt : KeyFormat) :
    Res (Assoc String Variable) :=
  match p.addVariables keys lb ub t name fmt with
  | (.error e, p') => (.error e, p')
  | (.ok vs, p') => (.ok (Assoc.ofEntries ((vs.map Variable.name).zip vs)), p')

/-- `_var_list` (`quadratic_program.py:271-303`). -/
def QP.varList (p : QP) (keys : Keys) (lb ub : ℚ) (t : VarType) (name : Option String) (fmt : KeyFormat) :
    Res (List Variable) :=
  p.addVariables keys lb ub t name fmt

/-- `binary_var_dict` (`quadratic_program.py:406-431`). -/
def QP.binaryVarDict (p : QP) (keys : Keys) (name : Option String) (fmt : KeyFormat) : Res (Assoc String Variable) :=
  p.varDict keys 0 1 .binary name fmt

/-- `integer_var_dict` (`quadratic_program.py:481-510`). -/
def QP.integerVarDict (p : QP) (keys : Keys) (lb ub : ℚ) (name : Option String) (fmt : KeyFormat) :
    Res (Assoc String Variable) :=
  p.varDict keys lb ub .integer name fmt

/-- `continuous_var_dict` (`quadratic_program.py:326-357`). -/
def QP.continuousVarDict (p : QP) (keys : Keys) (lb ub : ℚ) (name : Option String) (fmt : KeyFormat) :
    Res (Assoc String Variable) :=
  p.varDict keys lb ub .continuous name fmt

/-- `binary_var_list` (`quadratic_program.py:433-458`). -/
def QP.binaryVarList (p : QP) (keys : Keys) (name : Option String) (fmt : KeyFormat) : Res (List Variable) :=
  p.varList keys 0 1 .binary name fmt

/-- `integer_var_list` (`quadratic_program.py:512-541`). -/
def QP.integerVarList (p : QP) (keys : Keys) (lb ub : ℚ) (name : Option String) (fmt : KeyFormat) :
    Res (List Variable) :=
  p.varList keys lb ub .integer name fmt

/-- `continuous_var_list` (`quadratic_program.py:359-390`). -/
def QP.continuousVarList (p : QP) (keys : Keys) (lb ub : ℚ) (name : Option String) (fmt : KeyFormat) :
    Res (List Variable) :=
  p.varList keys lb ub .continuous name fmt

end Verif
