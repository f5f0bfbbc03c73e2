import Verif.Expr

/-!
# Coefficient dictionaries given to the builder operations
-/

namespace Verif

/-- An index dictionary (`expr.to_dict()`) as input. -/
def linIdx (d : Dict Nat) : LinInput := .dict (d.map fun q => (.idx q.1, q.2))

/-- An index-pair dictionary as input. -/
def quadIdx (d : Dict (Nat × Nat)) : QuadInput := .dict (d.map fun q => ((.idx q.1.1, .idx q.1.2), q.2))

/-- A dictionary keyed by names (`expr.to_dict(use_name=True)`) as input. -/
def linNames (d : Dict String) : LinInput := .dict (d.map fun q => (.name q.1, q.2))

/-- A dictionary keyed by pairs of names as input. -/
def quadNames (d : Dict (String × String)) : QuadInput :=
  .dict (d.map fun q => ((.name q.1.1, .name q.1.2), q.2))

end Verif
