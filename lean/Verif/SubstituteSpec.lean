import Verif.Spec

/-!
# Specification of substitution

What the user asks for with `substitute_variables`, in terms of positions of variables only.
-/

namespace Verif

/-- The key denotes the variable at position `i`. -/
def QP.Denotes (p : QP) (k : Key) (i : Nat) : Prop :=
  match k with
  | .idx m => m = i ∧ i < p.vars.length
  | .name s => p.vars[i]?.map Variable.name = some s

/-- Two keys denote the same variable. -/
def QP.SameVar (p : QP) (k l : Key) : Prop := ∃ i, p.Denotes k i ∧ p.Denotes l i

/-- `x` (a point of the source) extends `y` (a point of the result): constants have their value, replaced
variables are the given multiple of the replacing one, and variables kept under their name agree. -/
structure IsExtension (src dst : QP) (consts : List (Key × ℚ)) (varSubs : List (Key × Key × ℚ))
    (x y : Nat → ℚ) : Prop where
  const : ∀ e ∈ consts, ∀ i, src.Denotes e.1 i → x i = e.2
  var : ∀ e ∈ varSubs, ∀ i j, src.Denotes e.1 i → src.Denotes e.2.1 j → x i = e.2.2 * x j
  kept : ∀ (i a : Nat) (v w : Variable), src.vars[i]? = some v → dst.vars[a]? = some w →
    v.name = w.name → x i = y a

/-- All keys of the substitution denote variables. -/
def KnownKeys (src : QP) (consts : List (Key × ℚ)) (varSubs : List (Key × Key × ℚ)) : Prop :=
  (∀ e ∈ consts, ∃ i, src.Denotes e.1 i) ∧
    ∀ e ∈ varSubs, (∃ i, src.Denotes e.1 i) ∧ ∃ j, src.Denotes e.2.1 j

/-- The replaced keys, in the order of processing. -/
def replacedKeys (consts : List (Key × ℚ)) (varSubs : List (Key × Key × ℚ)) : List Key :=
  consts.map Prod.fst ++ varSubs.map Prod.fst

/-- A substitution is valid: known keys, no variable replaced twice, no zero coefficient, no variable replaced
by itself or by another replaced variable. -/
structure ValidSubst (src : QP) (consts : List (Key × ℚ)) (varSubs : List (Key × Key × ℚ)) : Prop where
  known : KnownKeys src consts varSubs
  distinct : (replacedKeys consts varSubs).Pairwise (fun k l => ¬ src.SameVar k l)
  nonzero : ∀ e ∈ varSubs, e.2.2 ≠ 0
  target : ∀ k ∈ replacedKeys consts varSubs, ∀ e ∈ varSubs, ¬ src.SameVar k e.2.1

end Verif
