import Mathlib.Data.Rat.Defs
import Mathlib.Algebra.Order.Ring.Rat
import Mathlib.Algebra.BigOperators.Group.List.Basic
import Mathlib.Tactic.Ring
import Mathlib.Tactic.Linarith

/-!
# Python dictionaries and dok matrices as association lists

Python `dict` (and `scipy.sparse.dok_matrix`, which is a dict of keys) is modelled as an association
list in insertion order.  Only the operations used by the modelled code are provided.
-/

namespace Verif

/-- Association list: a Python `dict`. -/
abbrev Assoc (κ β : Type) := List (κ × β)

namespace Assoc
variable {κ β : Type} [DecidableEq κ]

/-- `d.get(k)`: value of the first entry with key `k`. -/
def get? : Assoc κ β → κ → Option β
  | [], _ => none
  | (k', v) :: d, k => if k' = k then some v else get? d k

/-- `k in d`. -/
def has (d : Assoc κ β) (k : κ) : Bool := (get? d k).isSome

/-- `d[k] = v`: overwrite an existing entry in place, append otherwise. -/
def set : Assoc κ β → κ → β → Assoc κ β
  | [], k, v => [(k, v)]
  | (k', v') :: d, k, v => if k' = k then (k', v) :: d else (k', v') :: set d k v

/-- `del d[k]` (no error if absent). -/
def erase : Assoc κ β → κ → Assoc κ β
  | [], _ => []
  | (k', v') :: d, k => if k' = k then d else (k', v') :: erase d k

/-- The keys in order. -/
def keys (d : Assoc κ β) : List κ := d.map Prod.fst

/-- `{k: v for k, v in entries}`: later entries overwrite earlier ones. -/
def ofEntries (l : List (κ × β)) : Assoc κ β := l.foldl (fun d p => set d p.1 p.2) []

end Assoc

/-- A dictionary with numeric values (`Dict[..., float]`, dok matrix). -/
abbrev Dict (κ : Type) := Assoc κ ℚ

namespace Dict
variable {κ : Type} [DecidableEq κ]

/-- `d.get(k, 0)`; for a dok matrix `m[k]`. -/
def get (d : Dict κ) (k : κ) : ℚ := (Assoc.get? d k).getD 0

/-- `d[k] = d.get(k, 0) + v`, also `d[k] += v` on a `defaultdict(float)`. -/
def add (d : Dict κ) (k : κ) (v : ℚ) : Dict κ := Assoc.set d k (get d k + v)

/-- `m[k] = v` on a dok matrix: storing zero deletes the entry (scipy `dok_matrix.__setitem__`). -/
def dokSet (d : Dict κ) (k : κ) (v : ℚ) : Dict κ := if v = 0 then Assoc.erase d k else Assoc.set d k v

/-- The linear functional denoted by a dictionary: `∑ v * f k` over the entries. -/
def sum (d : Dict κ) (f : κ → ℚ) : ℚ := (d.map fun p => p.2 * f p.1).sum

end Dict
end Verif
