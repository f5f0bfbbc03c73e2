import Verif.Spec
import Verif.IneqToEqLoops
import Verif.IneqToEqSuccess

/-!
# Which slack variable a constraint gets

A specification that does not use the loops of the converter, and the bounds the converter calculates in its terms.
-/

namespace Verif

/-- The bounds of a variable (0 if there is none). -/
def QP.lbAt (p : QP) (i : Nat) : ℚ := ((p.vars[i]?).map Variable.lb).getD 0

/-- See `QP.lbAt`. -/
def QP.ubAt (p : QP) (i : Nat) : ℚ := ((p.vars[i]?).map Variable.ub).getD 0

/-- The four products of the bounds of two variables with a coefficient. -/
def QP.corners (p : QP) (i j : Nat) (a : ℚ) : ℚ × ℚ × ℚ × ℚ :=
  (p.lbAt i * p.lbAt j * a, p.lbAt i * p.ubAt j * a, p.ubAt i * p.lbAt j * a, p.ubAt i * p.ubAt j * a)

/-- A lower bound of the left-hand side: the sum of the least values of its terms. -/
def Cst.low (p : QP) : Cst → ℚ
  | .lin c => (c.linear.coeffs.map fun q => min (p.lbAt q.1 * q.2) (p.ubAt q.1 * q.2)).sum
  | .quad c => (c.linear.coeffs.map fun q => min (p.lbAt q.1 * q.2) (p.ubAt q.1 * q.2)).sum +
      (c.quadratic.coeffs.map fun q =>
        let r := p.corners q.1.1 q.1.2 q.2
        min (min (min r.1 r.2.1) r.2.2.1) r.2.2.2).sum

/-- An upper bound of the left-hand side: the sum of the greatest values of its terms. -/
def Cst.high (p : QP) : Cst → ℚ
  | .lin c => (c.linear.coeffs.map fun q => max (p.lbAt q.1 * q.2) (p.ubAt q.1 * q.2)).sum
  | .quad c => (c.linear.coeffs.map fun q => max (p.lbAt q.1 * q.2) (p.ubAt q.1 * q.2)).sum +
      (c.quadratic.coeffs.map fun q =>
        let r := p.corners q.1.1 q.1.2 q.2
        max (max (max r.1 r.2.1) r.2.2.1) r.2.2.2).sum

/-- All coefficients of the constraint are integers. -/
def Cst.allInt : Cst → Bool
  | .lin c => c.linear.coeffs.all fun q => q.2.den == 1
  | .quad c => c.linear.coeffs.all (fun q => q.2.den == 1) && c.quadratic.coeffs.all fun q => q.2.den == 1

theorem Cst.allInt_iff (c : Cst) : c.allInt = true ↔ c.IntCoeffs := by
  cases c <;> simp [Cst.allInt, Cst.IntCoeffs, den_one_iff]

/-- The right-hand side of the equality made of the constraint: rounded if the slack variable is an integer. -/
def Cst.target (mode : SlackMode) (c : Cst) : ℚ :=
  if mode ≠ .continuous ∧ c.allInt = true then
    match c.sense with
    | .le => (⌊c.rhs⌋ : ℚ)
    | .ge => (⌈c.rhs⌉ : ℚ)
    | .eq => c.rhs
  else c.rhs

/-- How far the left-hand side can be from the right-hand side. -/
def Cst.room (mode : SlackMode) (p : QP) (c : Cst) : ℚ :=
  match c.sense with
  | .le => c.target mode - c.low p
  | .ge => c.high p - c.target mode
  | .eq => 0

/-- The slack variable of the constraint, if there is room for one. -/
def Cst.slack (mode : SlackMode) (p : QP) (c : Cst) : List Variable :=
  if 0 < c.room mode p then
    [if mode ≠ .continuous ∧ c.allInt = true then ⟨c.name ++ "@int_slack", 0, c.room mode p, .integer⟩
      else ⟨c.name ++ "@continuous_slack", 0, c.room mode p, .continuous⟩]
  else []

theorem getVariable_slot {p : QP} (hp : p.Consistent) {i : Nat} {v : Variable} (hi : p.vars[i]? = some v) :
    p.getVariable (.name v.name) = .ok v :=
  (getVariable_iff hp _ _).mpr ⟨i, by simp [QP.Denotes, hi], hi⟩

theorem varName_at {p : QP} {i : Nat} {v : Variable} (hi : p.vars[i]? = some v) : varName p.vars i = v.name := by
  simp [varName, hi]

theorem calcLinBounds_exact {p : QP} (hp : p.Consistent) (l : Dict Nat) (hl : ∀ k ∈ Assoc.keys l, k < p.numVars)
    (acc : ℚ × ℚ) :
    calcLinBounds p (l.map fun q => (varName p.vars q.1, q.2)) acc =
      .ok (acc.1 + (l.map fun q => min (p.lbAt q.1 * q.2) (p.ubAt q.1 * q.2)).sum,
        acc.2 + (l.map fun q => max (p.lbAt q.1 * q.2) (p.ubAt q.1 * q.2)).sum) := by
  induction l generalizing acc with
  | nil => simp [calcLinBounds]
  | cons q l ih =>
    obtain ⟨k, a⟩ := q
    have hk : k < p.vars.length := hl k (by simp [Assoc.keys])
    have hv := List.getElem?_eq_getElem hk
    simp only [List.map_cons, calcLinBounds, varName_at hv, getVariable_slot hp hv]
    rw [ih (fun t ht => hl t (by simp only [Assoc.keys, List.map_cons] at ht ⊢; exact List.mem_cons_of_mem _ ht))]
    simp only [QP.lbAt, QP.ubAt, hv, Option.map_some, Option.getD_some, List.sum_cons, add_assoc]

theorem calcQuadBoundsLoop_exact {p : QP} (hp : p.Consistent) (l : Dict (Nat × Nat))
    (hl : ∀ k ∈ Assoc.keys l, k.1 < p.numVars ∧ k.2 < p.numVars) (acc : ℚ × ℚ) :
    calcQuadBoundsLoop p (l.map fun q => ((varName p.vars q.1.1, varName p.vars q.1.2), q.2)) acc =
      .ok (acc.1 + (l.map fun q =>
          let r := p.corners q.1.1 q.1.2 q.2
          min (min (min r.1 r.2.1) r.2.2.1) r.2.2.2).sum,
        acc.2 + (l.map fun q =>
          let r := p.corners q.1.1 q.1.2 q.2
          max (max (max r.1 r.2.1) r.2.2.1) r.2.2.2).sum) := by
  induction l generalizing acc with
  | nil => simp [calcQuadBoundsLoop]
  | cons q l ih =>
    obtain ⟨⟨i, j⟩, a⟩ := q
    have hk := hl (i, j) (by simp [Assoc.keys])
    have hv := List.getElem?_eq_getElem (l := p.vars) hk.1
    have hw := List.getElem?_eq_getElem (l := p.vars) hk.2
    simp only [List.map_cons, calcQuadBoundsLoop, varName_at hv, varName_at hw, getVariable_slot hp hv, getVariable_slot hp hw]
    rw [ih (fun t ht => hl t (by simp only [Assoc.keys, List.map_cons] at ht ⊢; exact List.mem_cons_of_mem _ ht))]
    simp only [QP.corners, QP.lbAt, QP.ubAt, hv, hw, Option.map_some, Option.getD_some, List.sum_cons, add_assoc]

theorem linBounds_exact {p : QP} (hp : p.Consistent) {k : LinCst} (hk : k.linear.Fits p.numVars) :
    calcLinBounds p (k.linear.toDictNames p.vars) (0, 0) = .ok ((Cst.lin k).low p, (Cst.lin k).high p) := by
  unfold LinExpr.toDictNames
  rw [calcLinBounds_exact hp k.linear.coeffs (fun i hi => lt_of_lt_of_le (hk.1.bound i hi) hk.2)]
  simp [Cst.low, Cst.high]

theorem quadBounds_exact {p : QP} (hp : p.Consistent) {k : QuadCst} (hk : k.linear.Fits p.numVars)
    (hq : k.quadratic.Fits p.numVars) :
    calcQuadBounds p (k.linear.toDictNames p.vars) (k.quadratic.toDictNames p.vars) =
      .ok ((Cst.quad k).low p, (Cst.quad k).high p) := by
  unfold calcQuadBounds LinExpr.toDictNames QuadExpr.toDictNames
  rw [calcLinBounds_exact hp k.linear.coeffs (fun i hi => lt_of_lt_of_le (hk.1.bound i hi) hk.2)]
  simp only
  rw [calcQuadBoundsLoop_exact hp k.quadratic.coeffs (fun i hi =>
    ⟨lt_of_lt_of_le (hq.1.bound i hi).1 hq.2, lt_of_lt_of_le (hq.1.bound i hi).2 hq.2⟩)]
  simp [Cst.low, Cst.high]

end Verif
