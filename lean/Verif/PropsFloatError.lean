import Verif.FloatErrorLemmas

/-!
# Bounds on rounding errors (C103)
-/

namespace Verif

/-- The sum of the absolute values of the terms at `x`. -/
def LinExpr.absVal (e : LinExpr) (x : Nat → ℚ) : ℚ := (e.coeffs.map fun p => |p.2| * |x p.1|).sum

/-- The sum of the absolute values of the terms at `x`. -/
def QuadExpr.absVal (e : QuadExpr) (x : Nat → ℚ) : ℚ := (e.coeffs.map fun p => |p.2| * (|x p.1.1| * |x p.1.2|)).sum

/-- The sum of the absolute values of the terms at `x`. -/
def Objective.absVal (o : Objective) (x : Nat → ℚ) : ℚ := |o.constant| + o.linear.absVal x + o.quadratic.absVal x

/-- The sum of the absolute values of the terms at `x`. -/
def Cst.absVal (x : Nat → ℚ) : Cst → ℚ
  | .lin c => c.linear.absVal x
  | .quad c => c.linear.absVal x + c.quadratic.absVal x

/-- The expression with coefficients rounded, as they are when they are stored (`linear_expression.py:64-95`,
`quadratic_expression.py:66-133`, `dtype` double). -/
def LinExpr.rounded (fl : ℚ → ℚ) (e : LinExpr) : LinExpr := ⟨e.n, e.coeffs.map fun p => (p.1, fl p.2)⟩

/-- The expression with coefficients rounded. -/
def QuadExpr.rounded (fl : ℚ → ℚ) (e : QuadExpr) : QuadExpr := ⟨e.n, e.coeffs.map fun p => (p.1, fl p.2)⟩

/-- The objective with coefficients rounded. -/
def Objective.rounded (fl : ℚ → ℚ) (o : Objective) : Objective :=
  { o with constant := fl o.constant, linear := o.linear.rounded fl, quadratic := o.quadratic.rounded fl }

/-- The constraint with coefficients and right-hand side rounded. -/
def Cst.rounded (fl : ℚ → ℚ) : Cst → Cst
  | .lin c => .lin { c with linear := c.linear.rounded fl, rhs := fl c.rhs }
  | .quad c => .quad { c with linear := c.linear.rounded fl, quadratic := c.quadratic.rounded fl, rhs := fl c.rhs }

/-- The program with all numbers rounded, as it is stored. -/
def QP.rounded (fl : ℚ → ℚ) (p : QP) : QP :=
  { p with
    vars := p.vars.map fun v => { v with lb := fl v.lb, ub := fl v.ub }
    lins := p.lins.map fun c => { c with linear := c.linear.rounded fl, rhs := fl c.rhs }
    quads := p.quads.map fun c =>
      { c with linear := c.linear.rounded fl, quadratic := c.quadratic.rounded fl, rhs := fl c.rhs }
    objective := p.objective.rounded fl }

/-- A bound on the number of roundings one after the other. -/
def Objective.ops (o : Objective) : ℕ := o.linear.coeffs.length + o.quadratic.coeffs.length + o.quadratic.n + 6

/-- A bound on the number of roundings one after the other. -/
def Cst.ops : Cst → ℕ
  | .lin c => c.linear.coeffs.length + 3
  | .quad c => c.linear.coeffs.length + c.quadratic.coeffs.length + c.quadratic.n + 6

theorem lin_err {fl : ℚ → ℚ} (hf : IsRounding fl) (e : LinExpr) (x : Nat → ℚ) (r : ℚ)
    (hr : (e.rounded fl).FlVal fl (fun i => fl (x i)) r) : Near (e.coeffs.length + 3) (e.absVal x) r (e.val x) := by
  unfold LinExpr.FlVal LinExpr.rounded at hr
  rw [List.map_map] at hr
  have := flSum_near hf e.coeffs _ (fun p => p.2 * x p.1) (fun p => |p.2| * |x p.1|) (k := 3) hr (fun p _ =>
    ((Near.round hf p.2).mul (Near.round hf (x p.1))).fl hf)
  rw [add_comm 3] at this
  exact this

theorem quad_err {fl : ℚ → ℚ} (hf : IsRounding fl) (e : QuadExpr) (he : ∀ p ∈ e.coeffs, p.1.2 < e.n) (x : Nat → ℚ) (r : ℚ)
    (hr : (e.rounded fl).FlVal fl (fun i => fl (x i)) r) :
    Near (e.coeffs.length + e.n + 5) (e.absVal x) r (e.val x) := by
  obtain ⟨y, hy, hr⟩ := hr
  have hy' : ∀ j < e.n, Near (e.coeffs.length + 3) (((e.coeffs.filter fun p => p.1.2 = j).map fun p => |x p.1.1| * |p.2|).sum)
      (y j) (((e.coeffs.filter fun p => p.1.2 = j).map fun p => x p.1.1 * p.2).sum) := by
    intro j hj
    have h := hy j hj
    simp only [QuadExpr.rounded, List.filter_map, List.map_map] at h
    have := flSum_near hf (e.coeffs.filter fun p => p.1.2 = j) _ (fun p => x p.1.1 * p.2) (fun p => |x p.1.1| * |p.2|) (k := 3) h
      (fun p _ => ((Near.round hf (x p.1.1)).mul (Near.round hf p.2)).fl hf)
    refine this.mono ?_
    have := List.length_filter_le (fun p : (Nat × Nat) × ℚ => decide (p.1.2 = j)) e.coeffs
    omega
  have h2 := flSum_near hf (List.range e.n) _
    (fun j => ((e.coeffs.filter fun p => p.1.2 = j).map fun p => x p.1.1 * p.2).sum * x j)
    (fun j => ((e.coeffs.filter fun p => p.1.2 = j).map fun p => |x p.1.1| * |p.2|).sum * |x j|) (k := e.coeffs.length + 5) hr
    (fun j hj => ((hy' j (List.mem_range.mp hj)).mul (Near.round hf (x j))).fl hf)
  rw [List.length_range] at h2
  have e1 : ((List.range e.n).map fun j =>
      ((e.coeffs.filter fun p => p.1.2 = j).map fun p => x p.1.1 * p.2).sum * x j).sum = e.val x := by
    rw [QuadExpr.val, Dict.sum, ← sum_columns _ _ he]
    congr 1
    refine List.map_congr_left fun j _ => ?_
    rw [← List.sum_map_mul_right]
    congr 1
    refine List.map_congr_left fun p hp => ?_
    have : p.1.2 = j := by simpa using (List.mem_filter.mp hp).2
    rw [this]; ring
  have e2 : ((List.range e.n).map fun j =>
      ((e.coeffs.filter fun p => p.1.2 = j).map fun p => |x p.1.1| * |p.2|).sum * |x j|).sum = e.absVal x := by
    rw [QuadExpr.absVal, ← sum_columns _ _ he]
    congr 1
    refine List.map_congr_left fun j _ => ?_
    rw [← List.sum_map_mul_right]
    congr 1
    refine List.map_congr_left fun p hp => ?_
    have : p.1.2 = j := by simpa using (List.mem_filter.mp hp).2
    rw [this]; ring
  rw [e1, e2] at h2
  exact h2.mono (by omega)

theorem obj_err {fl : ℚ → ℚ} (hf : IsRounding fl) (o : Objective) (ho : ∀ p ∈ o.quadratic.coeffs, p.1.2 < o.quadratic.n)
    (x : Nat → ℚ) (r : ℚ) (hr : (o.rounded fl).FlVal fl (fun i => fl (x i)) r) : Near o.ops (o.absVal x) r (o.val x) := by
  obtain ⟨l, q, h1, h2, rfl⟩ := hr
  have a1 := lin_err hf o.linear x l h1
  have a2 := quad_err hf o.quadratic ho x q h2
  have a3 := ((((Near.round hf o.constant).mono (k' := o.linear.coeffs.length + 3) (by omega)).add a1).fl hf).mono
    (k' := o.linear.coeffs.length + o.quadratic.coeffs.length + o.quadratic.n + 5) (by omega)
  exact (a3.add (a2.mono (by omega))).fl hf

theorem cst_err {fl : ℚ → ℚ} (hf : IsRounding fl) (p : QP) (hp : p.WF) (c : Cst) (hc : c ∈ p.allCsts) (x : Nat → ℚ) (r : ℚ)
    (hr : (c.rounded fl).FlVal fl (fun i => fl (x i)) r) : Near c.ops (c.absVal x) r (c.val x) := by
  cases c with
  | lin c => exact lin_err hf c.linear x r hr
  | quad c =>
    obtain ⟨l, q, h1, h2, rfl⟩ := hr
    have a1 := (lin_err hf c.linear x l h1).mono
      (k' := c.linear.coeffs.length + c.quadratic.coeffs.length + c.quadratic.n + 5) (by omega)
    have hm : c ∈ p.quads := by
      simp only [QP.allCsts, List.mem_append, List.mem_map, Cst.quad.injEq, exists_eq_right, reduceCtorEq, and_false,
        exists_false, false_or] at hc
      exact hc
    have hw := (hp.quads c hm).2.1
    exact (a1.add ((quad_err hf c.quadratic (fun q hq => (hw.bound q.1 (List.mem_map_of_mem hq)).2) x q h2).mono
      (by omega))).fl hf

theorem near_bound {k : ℕ} {w a b : ℚ} (h : Near k w a b) (hk : k ≤ 2 ^ 52) : |a - b| ≤ k / 2 ^ 52 * w :=
  h.err.trans (mul_le_mul_of_nonneg_right (pow_ulp_le hk) h.nonneg)

/-- **C103** (objective): with `N` terms, up to `2 ^ 52`, the objective value computed with rounding, from coefficients and a
point that were rounded themselves, differs from the exact value by at most `N / 2 ^ 52` times the sum of the absolute
values of the terms. -/
theorem C103_objective {fl : ℚ → ℚ} (hf : IsRounding fl) (p : QP) (hp : p.WF) (hN : p.objective.ops ≤ 2 ^ 52)
    (x : Nat → ℚ) (r : ℚ) (hr : (p.objective.rounded fl).FlVal fl (fun i => fl (x i)) r) :
    |r - p.objective.val x| ≤ p.objective.ops / 2 ^ 52 * p.objective.absVal x :=
  near_bound (obj_err hf p.objective (fun q hq => (hp.objQuad.1.bound q.1 (List.mem_map_of_mem hq)).2) x r hr) hN

/-- **C103** (comparison): a point that is reported with a value not worse than that of another one is worse by at most the
sum of both error bounds. -/
theorem C103_compare {fl : ℚ → ℚ} (hf : IsRounding fl) (p : QP) (hp : p.WF) (hN : p.objective.ops ≤ 2 ^ 52)
    (x y : Nat → ℚ) (r s : ℚ) (hr : (p.objective.rounded fl).FlVal fl (fun i => fl (x i)) r)
    (hs : (p.objective.rounded fl).FlVal fl (fun i => fl (y i)) s)
    (h : p.objective.sense.value * r ≤ p.objective.sense.value * s) :
    p.objective.sense.value * p.objective.val x ≤ p.objective.sense.value * p.objective.val y +
      p.objective.ops / 2 ^ 52 * (p.objective.absVal x + p.objective.absVal y) := by
  have h1 := abs_le.mp (C103_objective hf p hp hN x r hr)
  have h2 := abs_le.mp (C103_objective hf p hp hN y s hs)
  rw [mul_add]
  cases hse : p.objective.sense <;> simp only [hse, ObjSense.value] at h ⊢ <;> linarith

/-- The error bound for the comparison of a constraint with its right-hand side. -/
def Cst.errBound (c : Cst) (x : Nat → ℚ) : ℚ := c.ops / 2 ^ 52 * c.absVal x + |c.rhs| / 2 ^ 53

theorem cst_diff {fl : ℚ → ℚ} (hf : IsRounding fl) (p : QP) (hp : p.WF) (c : Cst) (hc : c ∈ p.allCsts) (hN : c.ops ≤ 2 ^ 52)
    (x : Nat → ℚ) (r : ℚ) (hr : (c.rounded fl).FlVal fl (fun i => fl (x i)) r) :
    |(r - fl c.rhs) - (c.val x - c.rhs)| ≤ c.errBound x := by
  have h1 := near_bound (cst_err hf p hp c hc x r hr) hN
  have h2 := fl_err hf c.rhs
  rw [Cst.errBound]
  have e : (r - fl c.rhs) - (c.val x - c.rhs) = (r - c.val x) - (fl c.rhs - c.rhs) := by ring
  rw [e]
  have := abs_sub (r - c.val x) (fl c.rhs - c.rhs)
  linarith

/-- **C103** (inequalities): a point that is not within the error bound of the boundary gets the right verdict. -/
theorem C103_inequality {fl : ℚ → ℚ} (hf : IsRounding fl) (p : QP) (hp : p.WF) (c : Cst) (hc : c ∈ p.allCsts)
    (hse : c.sense ≠ .eq) (hN : c.ops ≤ 2 ^ 52) (x : Nat → ℚ) (hx : c.errBound x < |c.val x - c.rhs|) (r : ℚ)
    (hr : (c.rounded fl).FlVal fl (fun i => fl (x i)) r) :
    c.sense.flHolds fl r (fl c.rhs) ↔ c.sense.rel (c.val x) c.rhs := by
  have h := abs_le.mp (cst_diff hf p hp c hc hN x r hr)
  cases hs : c.sense with
  | eq => exact absurd hs hse
  | le =>
    simp only [Sense.flHolds, Sense.rel]
    rcases lt_abs.mp hx with h1 | h1
    · exact ⟨fun _ => by linarith, fun _ => by linarith⟩
    · exact ⟨fun _ => by linarith, fun _ => by linarith⟩
  | ge =>
    simp only [Sense.flHolds, Sense.rel]
    rcases lt_abs.mp hx with h1 | h1
    · exact ⟨fun _ => by linarith, fun _ => by linarith⟩
    · exact ⟨fun _ => by linarith, fun _ => by linarith⟩

theorem fl_upper {fl : ℚ → ℚ} (hf : IsRounding fl) (q : ℚ) : |fl q| ≤ (1 + ulp) * |q| := by
  have := (Near.round hf q).abs_le
  rwa [pow_one] at this

theorem fl_lower {fl : ℚ → ℚ} (hf : IsRounding fl) (q : ℚ) : (1 - ulp) * |q| ≤ |fl q| := by
  have h1 := fl_err hf q
  have h2 : |q| ≤ |q - fl q| + |fl q| := by
    have := abs_add_le (q - fl q) (fl q)
    simpa using this
  rw [abs_sub_comm] at h2
  rw [ulp]; linarith

/-- **C103** (equalities): a point that satisfies an equality passes the check if twice the error bound is at most `1e-9`
times the right-hand side; a point that passes the check satisfies the equality up to the relative tolerance of `2e-9` and
twice the error bound. -/
theorem C103_equality {fl : ℚ → ℚ} (hf : IsRounding fl) (p : QP) (hp : p.WF) (c : Cst) (hc : c ∈ p.allCsts)
    (hse : c.sense = .eq) (hN : c.ops ≤ 2 ^ 52) (x : Nat → ℚ) (r : ℚ)
    (hr : (c.rounded fl).FlVal fl (fun i => fl (x i)) r) :
    (c.val x = c.rhs → 2 * c.errBound x ≤ |c.rhs| / 10 ^ 9 → c.sense.flHolds fl r (fl c.rhs)) ∧
    (c.sense.flHolds fl r (fl c.rhs) → |c.val x - c.rhs| ≤ 2 / 10 ^ 9 * max |c.val x| |c.rhs| + 2 * c.errBound x) := by
  have h := cst_diff hf p hp c hc hN x r hr
  have hE : 0 ≤ c.errBound x := (abs_nonneg _).trans h
  have t1 := fl_lower hf (1 / 10 ^ 9)
  have t2 := fl_upper hf (1 / 10 ^ 9)
  rw [abs_of_pos (by norm_num : (0 : ℚ) < 1 / 10 ^ 9)] at t1 t2
  have b1 := fl_lower hf c.rhs
  have b2 := fl_upper hf c.rhs
  rw [hse]
  constructor
  · intro hv hb
    right; left
    rw [hv, sub_self, sub_zero] at h
    have d := fl_upper hf (fl c.rhs - r)
    rw [abs_sub_comm] at d
    have m1 := fl_lower hf (fl (1 / 10 ^ 9) * fl c.rhs)
    rw [abs_mul] at m1
    have m2 : (1 - ulp) * (1 / 10 ^ 9) * ((1 - ulp) * |c.rhs|) ≤ |fl (1 / 10 ^ 9)| * |fl c.rhs| :=
      mul_le_mul t1 b1 (mul_nonneg (by norm_num [ulp]) (abs_nonneg _)) (abs_nonneg _)
    simp only [ulp] at d m1 m2
    have := abs_nonneg c.rhs
    linarith
  · intro hh
    have hv : |c.val x - c.rhs| ≤ |fl c.rhs - r| + c.errBound x := by
      have h1 := abs_sub (r - fl c.rhs) ((r - fl c.rhs) - (c.val x - c.rhs))
      have e : r - fl c.rhs - (r - fl c.rhs - (c.val x - c.rhs)) = c.val x - c.rhs := by ring
      rw [e, abs_sub_comm r] at h1
      linarith
    have hr1 : |r| ≤ |c.val x| + c.errBound x := by
      have h1 := near_bound (cst_err hf p hp c hc x r hr) hN
      have h2 := abs_add_le (r - c.val x) (c.val x)
      rw [sub_add_cancel] at h2
      have h3 : 0 ≤ |c.rhs| / 2 ^ 53 := by positivity
      rw [Cst.errBound]; linarith
    have hmax1 := le_max_left |c.val x| |c.rhs|
    have hmax2 := le_max_right |c.val x| |c.rhs|
    have hmax0 := (abs_nonneg (c.val x)).trans hmax1
    have d := fl_lower hf (fl c.rhs - r)
    rcases hh with hh | hh | hh
    · rw [hh, sub_self, abs_zero] at hv
      linarith
    · have m1 := fl_upper hf (fl (1 / 10 ^ 9) * fl c.rhs)
      rw [abs_mul] at m1
      have m2 : |fl (1 / 10 ^ 9)| * |fl c.rhs| ≤ (1 + ulp) * (1 / 10 ^ 9) * ((1 + ulp) * |c.rhs|) :=
        mul_le_mul t2 b2 (abs_nonneg _) (by norm_num [ulp])
      simp only [ulp] at d m1 m2
      linarith
    · have m1 := fl_upper hf (fl (1 / 10 ^ 9) * r)
      rw [abs_mul] at m1
      have m2 : |fl (1 / 10 ^ 9)| * |r| ≤ (1 + ulp) * (1 / 10 ^ 9) * (|c.val x| + c.errBound x) :=
        mul_le_mul t2 hr1 (abs_nonneg _) (by norm_num [ulp])
      simp only [ulp] at d m1 m2
      linarith

/-- The constraint holds with a margin above the rounding errors. -/
def Cst.SafelySat (c : Cst) (x : Nat → ℚ) : Prop :=
  match c.sense with
  | .le => c.val x + c.errBound x ≤ c.rhs
  | .ge => c.rhs + c.errBound x ≤ c.val x
  | .eq => c.val x = c.rhs ∧ 2 * c.errBound x ≤ |c.rhs| / 10 ^ 9

/-- The constraint holds up to rounding errors and, for equalities, the tolerance of the check. -/
def Cst.NearlySat (c : Cst) (x : Nat → ℚ) : Prop :=
  match c.sense with
  | .le => c.val x ≤ c.rhs + c.errBound x
  | .ge => c.rhs ≤ c.val x + c.errBound x
  | .eq => |c.val x - c.rhs| ≤ 2 / 10 ^ 9 * max |c.val x| |c.rhs| + 2 * c.errBound x

theorem rounded_csts (fl : ℚ → ℚ) (p : QP) : (p.rounded fl).allCsts = p.allCsts.map (Cst.rounded fl) := by
  simp only [QP.allCsts, QP.rounded, List.map_append, List.map_map]
  rfl

theorem rounded_sense (fl : ℚ → ℚ) (c : Cst) : (c.rounded fl).sense = c.sense := by cases c <;> rfl

theorem rounded_rhs (fl : ℚ → ℚ) (c : Cst) : (c.rounded fl).rhs = fl c.rhs := by cases c <;> rfl

/-- **C103** (feasibility): when all numbers of the program and of the point are rounded and the check of feasibility computes
with rounding, every point within the bounds that satisfies the constraints with a margin above the error bounds is
reported as feasible; and a point that is reported as feasible satisfies the bounds and the constraints up to the error
bounds. -/
theorem C103_feasible {fl : ℚ → ℚ} (hf : IsRounding fl) (p : QP) (hp : p.WF) (hN : ∀ c ∈ p.allCsts, c.ops ≤ 2 ^ 52)
    (x : Nat → ℚ) (b : Bool) (hb : (p.rounded fl).FlVerdict fl (fun i => fl (x i)) b) :
    (p.InBounds x → (∀ c ∈ p.allCsts, c.SafelySat x) → b = true) ∧
    (b = true → (∀ (i : Nat) (v : Variable), p.vars[i]? = some v →
        v.lb - (|v.lb| + |x i|) / 2 ^ 53 ≤ x i ∧ x i ≤ v.ub + (|v.ub| + |x i|) / 2 ^ 53) ∧
      ∀ c ∈ p.allCsts, c.NearlySat x) := by
  obtain ⟨r, hr, hbr⟩ := hb
  rw [rounded_csts, List.forall_mem_map] at hr hbr
  constructor
  · intro hx hs
    refine hbr.mpr ⟨?_, ?_⟩
    · intro i v hv
      simp only [QP.rounded, List.getElem?_map, Option.map_eq_some_iff] at hv
      obtain ⟨w, hw, rfl⟩ := hv
      exact ⟨fl_mono hf (hx i w hw).1, fl_mono hf (hx i w hw).2⟩
    · intro c hc
      rw [rounded_sense, rounded_rhs]
      have h := abs_le.mp (cst_diff hf p hp c hc (hN c hc) x _ (hr c hc))
      have hsc := hs c hc
      unfold Cst.SafelySat at hsc
      cases hse : c.sense with
      | le => rw [hse] at hsc; show _ ≤ _; simp only at hsc; linarith
      | ge => rw [hse] at hsc; show _ ≤ _; simp only at hsc; linarith
      | eq =>
        rw [hse] at hsc
        have := (C103_equality hf p hp c hc hse (hN c hc) x _ (hr c hc)).1 hsc.1 hsc.2
        rwa [hse] at this
  · intro h
    obtain ⟨h1, h2⟩ := hbr.mp h
    constructor
    · intro i v hv
      obtain ⟨a1, a2⟩ := h1 i { v with lb := fl v.lb, ub := fl v.ub } (by simp [QP.rounded, hv])
      have e1 := abs_le.mp (fl_err hf v.lb)
      have e2 := abs_le.mp (fl_err hf v.ub)
      have e3 := abs_le.mp (fl_err hf (x i))
      simp only at a1 a2
      constructor <;> rw [add_div] <;> linarith
    · intro c hc
      have h3 := h2 c hc
      rw [rounded_sense, rounded_rhs] at h3
      have h := abs_le.mp (cst_diff hf p hp c hc (hN c hc) x _ (hr c hc))
      unfold Cst.NearlySat
      cases hse : c.sense with
      | le => rw [hse] at h3; have h3 : _ ≤ _ := h3; simp only; linarith
      | ge => rw [hse] at h3; have h3 : _ ≤ _ := h3; simp only; linarith
      | eq => exact (C103_equality hf p hp c hc hse (hN c hc) x _ (hr c hc)).2 h3

/-- A program with decimal numbers. -/
def decimalQP : QP :=
  (runCalls (QP.empty "") [.addVar 0 (7 / 10) .continuous (some "x"), .addVar 0 3 .integer (some "y"),
    .objective .minimize (1 / 10) (.dict [(.name "x", 3 / 10)]) (.dict [((.name "x", .name "y"), 7 / 10)]),
    .linear (.dict [(.name "x", 1 / 10), (.name "y", 2 / 10)]) (.sense .le) (7 / 10) (some "c"),
    .linear (.dict [(.name "x", 1 / 10), (.name "y", 3 / 10)]) (.sense .eq) (67 / 100) (some "d"),
    .quadratic (.dict [(.name "x", -1 / 10)]) (.dict [((.name "x", .name "y"), 1 / 10)]) (.sense .ge) 0 (some "q")]).2

/-- The hypotheses are met: the point `(0.7, 2)` of `decimalQP`, with decimals that no double represents, is reported as
feasible in floating point arithmetic. -/
example : decimalQP.WF ∧ decimalQP.objective.ops = 10 ∧ decimalQP.allCsts.length = 3 ∧ ∃ fl : ℚ → ℚ, IsRounding fl ∧
    ∃ b, (decimalQP.rounded fl).FlVerdict fl (fun i => fl (pt [7 / 10, 2] i)) b ∧ b = true := by
  have hp : decimalQP.WF := by decide +kernel
  refine ⟨hp, by decide +kernel, by decide +kernel, ?_⟩
  obtain ⟨fl, hf⟩ := exists_rounding
  refine ⟨fl, hf, ?_⟩
  obtain ⟨b, hb⟩ := QP.flVerdict_exists fl (decimalQP.rounded fl) (fun i => fl (pt [7 / 10, 2] i))
  have hv : decimalQP.vars = [⟨"x", 0, 7 / 10, .continuous⟩, ⟨"y", 0, 3, .integer⟩] := by decide +kernel
  have hl : decimalQP.allCsts = [.lin ⟨"c", ⟨2, [(0, 1 / 10), (1, 2 / 10)]⟩, .le, 7 / 10⟩,
    .lin ⟨"d", ⟨2, [(0, 1 / 10), (1, 3 / 10)]⟩, .eq, 67 / 100⟩,
    .quad ⟨"q", ⟨2, [(0, -1 / 10)]⟩, ⟨2, [((0, 1), 1 / 10)]⟩, .ge, 0⟩] := by decide +kernel
  refine ⟨b, hb, (C103_feasible hf decimalQP hp ?_ _ b hb).1 ?_ ?_⟩
  · rw [hl]; decide
  · intro i v hi
    rw [hv] at hi
    rcases i with _ | _ | i
    · simp only [List.getElem?_cons_zero, Option.some.injEq] at hi; subst hi; norm_num [pt]
    · simp only [List.getElem?_cons_succ, List.getElem?_cons_zero, Option.some.injEq] at hi; subst hi; norm_num [pt]
    · simp at hi
  · rw [hl]
    intro c hc
    simp only [List.mem_cons, List.not_mem_nil, or_false] at hc
    rcases hc with rfl | rfl | rfl <;>
    norm_num [Cst.SafelySat, Cst.sense, Cst.val, Cst.errBound, Cst.ops, Cst.absVal, Cst.rhs, LinExpr.val, QuadExpr.val, Dict.sum,
      LinExpr.absVal, QuadExpr.absVal, pt, abs_of_pos, abs_of_neg]

end Verif
