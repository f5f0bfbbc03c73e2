import Verif.Program

/-!
# Specifications

What a quadratic program means mathematically, independent of the checking code: values of constraints,
satisfaction, bounds, integrality, feasibility, optimality.  Points are functions `Nat → ℚ` (coordinate `i`
belongs to variable `i`).
-/

namespace Verif

/-- Left-hand side of a constraint at a point. -/
def Cst.val : Cst → (Nat → ℚ) → ℚ
  | .lin c, x => c.linear.val x
  | .quad c, x => c.linear.val x + c.quadratic.val x

/-- Name of a constraint. -/
def Cst.name : Cst → String
  | .lin c => c.name
  | .quad c => c.name

/-- The relation a sense stands for. -/
def Sense.rel : Sense → ℚ → ℚ → Prop
  | .le, a, b => a ≤ b
  | .ge, a, b => b ≤ a
  | .eq, a, b => a = b

/-- The relation with the documented tolerance on equalities: relative `1e-9`. -/
def Sense.relTol : Sense → ℚ → ℚ → Prop
  | .le, a, b => a ≤ b
  | .ge, a, b => b ≤ a
  | .eq, a, b => |a - b| ≤ 1 / 10 ^ 9 * max |a| |b|

/-- Every coordinate lies between the bounds of its variable. -/
def QP.InBounds (p : QP) (x : Nat → ℚ) : Prop :=
  ∀ i v, p.vars[i]? = some v → v.lb ≤ x i ∧ x i ≤ v.ub

/-- Binary and integer variables take integral values. -/
def QP.Integral (p : QP) (x : Nat → ℚ) : Prop :=
  ∀ i v, p.vars[i]? = some v → v.vartype ≠ .continuous → ∃ z : Int, x i = z

/-- All constraints of a program, linear ones first.  This is part of the specification: the list that the code checks
is `QP.csts`. -/
def QP.allCsts (p : QP) : List Cst := p.lins.map .lin ++ p.quads.map .quad

/-- All constraints hold exactly. -/
def QP.Sat (p : QP) (x : Nat → ℚ) : Prop := ∀ c ∈ p.allCsts, c.sense.rel (c.val x) c.rhs

/-- Feasibility in the mathematical sense. -/
def QP.Feas (p : QP) (x : Nat → ℚ) : Prop := p.InBounds x ∧ p.Integral x ∧ p.Sat x

/-- `x` is an optimal point among those with property `F` for the objective `o`. -/
def OptimalIn (F : (Nat → ℚ) → Prop) (o : Objective) (x : Nat → ℚ) : Prop :=
  F x ∧ ∀ y, F y → o.sense.value * o.val x ≤ o.sense.value * o.val y

/-- Every expression of the constraint has `n` columns. -/
def Cst.HasShape (n : Nat) : Cst → Prop
  | .lin c => c.linear.n = n
  | .quad c => c.linear.n = n ∧ c.quadratic.n = n

instance (n : Nat) (c : Cst) : Decidable (c.HasShape n) := by
  cases c <;> unfold Cst.HasShape <;> infer_instance

/-- Every expression of the program has as many columns as there are variables (true when the constraints
and the objective are created after all variables, see C54). -/
def QP.ShapeOK (p : QP) : Prop :=
  (∀ c ∈ p.allCsts, c.HasShape p.numVars) ∧ p.objective.linear.n = p.numVars ∧
    p.objective.quadratic.n = p.numVars

instance (p : QP) : Decidable p.ShapeOK := by unfold QP.ShapeOK; infer_instance

/-- Integer variables have integral bounds with at least two values. -/
def QP.IntBoundsOK (p : QP) : Prop :=
  ∀ v ∈ p.vars, v.vartype = .integer → (∃ z : Int, v.lb = z) ∧ (∃ z : Int, v.ub = z) ∧ v.lb < v.ub

/-- Binary variables have the bounds zero and one. -/
def QP.BinBoundsOK (p : QP) : Prop := ∀ v ∈ p.vars, v.vartype = .binary → v.lb = 0 ∧ v.ub = 1

/-- Binary variables have bounds within zero and one (possibly tightened). -/
def QP.BinBoundsIn (p : QP) : Prop := ∀ v ∈ p.vars, v.vartype = .binary → 0 ≤ v.lb ∧ v.ub ≤ 1

/-- The constraint has integer coefficients only. -/
def Cst.IntCoeffs : Cst → Prop
  | .lin c => ∀ q ∈ c.linear.coeffs, ∃ z : Int, q.2 = z
  | .quad c => (∀ q ∈ c.linear.coeffs, ∃ z : Int, q.2 = z) ∧ ∀ q ∈ c.quadratic.coeffs, ∃ z : Int, q.2 = z

/-- No continuous variable occurs in the constraint. -/
def Cst.NoContinuous (p : QP) : Cst → Prop
  | .lin c => ∀ k ∈ Assoc.keys c.linear.coeffs, ∀ v, p.vars[k]? = some v → v.vartype ≠ .continuous
  | .quad c => (∀ k ∈ Assoc.keys c.linear.coeffs, ∀ v, p.vars[k]? = some v → v.vartype ≠ .continuous) ∧
      ∀ k ∈ Assoc.keys c.quadratic.coeffs, ∀ v, (p.vars[k.1]? = some v ∨ p.vars[k.2]? = some v) →
        v.vartype ≠ .continuous

/-- Products of two integer variables in the expression: each factor has lower bound zero, or the other factor
takes at most three values. -/
def ProductsOK (p : QP) (e : QuadExpr) : Prop :=
  ∀ k ∈ Assoc.keys e.coeffs, ∀ v w, p.vars[k.1]? = some v → p.vars[k.2]? = some w →
    v.vartype = .integer → w.vartype = .integer →
    (w.lb = 0 ∨ v.ub - v.lb ≤ 2) ∧ (v.lb = 0 ∨ w.ub - w.lb ≤ 2)

end Verif
