import Verif.PenaltyLemmas
import Verif.PropsIneqToEq

/-!
# C19, C20, C21: linear equality constraints as penalties
-/

namespace Verif

theorem map_plainVar {l : List Variable} (h : ∀ v ∈ l, v.vartype = .binary → v.lb = 0 ∧ v.ub = 1) :
    l.map plainVar = l := by
  conv_rhs => rw [← List.map_id l]
  apply List.map_congr_left
  intro v hv
  unfold plainVar
  split
  · rename_i ht
    obtain ⟨h0, h1⟩ := h v hv ht
    obtain ⟨nm, lb, ub, t⟩ := v
    simp only at h0 h1 ht
    subst h0 h1 ht; rfl
  · rfl

/-! ## C19 -/

/-- The specified penalty term: the sum over the linear constraints of `(lhs(x) - rhs)^2`. -/
def sumSquares (p : QP) (x : Nat → ℚ) : ℚ := (p.lins.map fun c => (c.linear.val x - c.rhs) ^ 2).sum

theorem sumSquares_eq (p : QP) (x : Nat → ℚ) : sumSquares p x = residual2 p.lins x := rfl

/-- A program with a quadratic inequality. -/
def quadIneqQP : QP :=
  (runCalls (QP.empty "") [.addVar 0 1 .binary (some "x"), .addVar 0 1 .binary (some "y"),
    .quadratic (.dict []) (.dict [((.name "x", .name "y"), 1)]) (.str ">=") 1 (some "q"),
    .objective .minimize 0 (.dict [(.name "x", 1)]) (.dict [])]).2

/-- Its conversion. -/
def quadIneqDst : QP := match quadIneqQP.toPenalty (some 3) with | .ok (d, _) => d | .error _ => QP.empty ""

/-- **C19 fails**: a program with a quadratic inequality is not rejected; the constraint is dropped. -/
theorem C19_violated : ∃ (src dst : QP) (pen : ℚ), src.WF ∧ src.allCsts.map Cst.sense = [.ge] ∧
    src.toPenalty (some pen) = .ok (dst, pen) ∧ dst.allCsts.length = 0 ∧ dst.objective = src.objective :=
  ⟨quadIneqQP, quadIneqDst, 3, by decide +kernel, by decide +kernel, by decide +kernel, by decide +kernel,
    by decide +kernel⟩

/-- **C19, the objective of the result** (the part that holds).  Full statement: the result is unconstrained, has the
same variables, its objective at every point is the objective of the source plus `sense * penalty * sumSquares`, and
programs with an inequality are rejected (see `C19_rejects`).  Missing: quadratic inequalities are not rejected (false
by `C19_violated`), and "the same variables" includes the bounds only for binary variables with bounds zero and one
(false otherwise by `C21_violated_bounds`).  The claim about the objective has no side conditions. -/
theorem C19_objective_partial (penalty : Option ℚ) (src dst : QP) (pen : ℚ) (hs : src.WF)
    (h : src.toPenalty penalty = .ok (dst, pen)) :
    (∀ x, dst.objective.val x = src.objective.val x + src.objective.sense.value * pen * sumSquares src x) ∧
    (∀ p, penalty = some p → pen = p) ∧ dst.objective.sense = src.objective.sense ∧ dst.allCsts = [] ∧
    dst.vars.map Variable.name = src.vars.map Variable.name ∧
    dst.vars.map Variable.vartype = src.vars.map Variable.vartype ∧ (src.BinBoundsOK → dst.vars = src.vars) ∧
    dst.name = src.name := by
  have hf := toPenalty_facts hs h
  refine ⟨hf.obj, ?_, hf.sense, hf.csts, ?_, ?_, ?_, hf.name⟩
  · rintro p rfl; exact hf.penEq
  · rw [hf.vars, List.map_map]; exact List.map_congr_left (fun v _ => plainVar_name v)
  · rw [hf.vars, List.map_map]
    apply List.map_congr_left
    intro v _
    simp only [Function.comp, plainVar]
    split
    · rename_i ht; rw [ht]; rfl
    · rfl
  · intro hb; rw [hf.vars]; exact map_plainVar hb

/-- **C19, rejection**: a program with a linear inequality is rejected, whatever the penalty. -/
theorem C19_rejects (penalty : Option ℚ) (src : QP) (h : ∃ c ∈ src.lins, c.sense ≠ .eq) :
    src.toPenalty penalty = .error .optimization := by
  unfold QP.toPenalty
  simp only
  split
  · rename_i e he; rw [copyAllVars_error he]
  · rw [penLoop_reject h]

/-- **C19, acceptance**: a program whose linear constraints are equalities is accepted. -/
theorem C19_accepts (penalty : Option ℚ) (src : QP) (hs : src.WF) (hb : ∀ v ∈ src.vars, v.lb ≤ v.ub)
    (h : ∀ c ∈ src.lins, c.sense = .eq) : ∃ dst pen, src.toPenalty penalty = .ok (dst, pen) :=
  toPenalty_success hs hb h

/-- A program with two overlapping equality constraints and a quadratic objective to be maximized. -/
def penQP : QP :=
  (runCalls (QP.empty "p") [.addVar 0 1 .binary (some "x"), .addVar 0 1 .binary (some "y"), .addVar 0 1 .integer (some "z"),
    .objective .maximize 5 (.dict [(.name "x", 2)]) (.dict [((.name "x", .name "y"), -3)]),
    .linear (.dict [(.name "x", 1), (.name "y", 2)]) (.str "==") 2 (some "c"),
    .linear (.dict [(.name "y", 1), (.name "z", -1)]) (.str "==") 0 (some "d")]).2

/-- Its conversion. -/
def penDst : QP := match penQP.toPenalty none with | .ok (d, _) => d | .error _ => QP.empty ""

example : penQP.WF ∧ penQP.toPenalty none = .ok (penDst, 6) ∧ penDst.objective.val (pt [1, 0, 1]) = -5 ∧
    penQP.objective.val (pt [1, 0, 1]) = 7 ∧ sumSquares penQP (pt [1, 0, 1]) = 2 ∧
    (∀ v ∈ penQP.vars, v.lb ≤ v.ub) ∧ (∀ c ∈ penQP.lins, c.sense = .eq) ∧
    (∃ c ∈ slackQP.lins, c.sense ≠ .eq) := by decide +kernel

/-! ## C20 -/

theorem plain_admits_iff {src dst : QP} (hv : dst.vars = src.vars.map plainVar) (hb : src.BinBoundsOK) (x : Nat → ℚ) :
    (dst.InBounds x ∧ dst.Integral x) ↔ (src.InBounds x ∧ src.Integral x) := by
  rw [map_plainVar hb] at hv
  simp only [QP.InBounds, QP.Integral, hv]

/-- A constraint with a fractional coefficient. -/
def halfQP : QP :=
  (runCalls (QP.empty "") [.addVar 0 1 .binary (some "x"),
    .linear (.dict [(.name "x", 1 / 2)]) (.str "==") (1 / 2) (some "c"),
    .objective .minimize 0 (.dict [(.name "x", 30000)]) (.dict [])]).2

/-- Its conversion. -/
def halfDst : QP := match halfQP.toPenalty none with | .ok (d, _) => d | .error _ => QP.empty ""

/-- **C20 fails** for fractional constraint data: the penalty is then the constant 100000, which is too small for
`minimize 30000 x` subject to `x / 2 = 1 / 2` with binary `x`; the optimal point of the result is infeasible. -/
theorem C20_violated : ∃ (src dst : QP) (pen : ℚ) (x0 x : Nat → ℚ), src.WF ∧ (∀ v ∈ src.vars, v.vartype = .binary) ∧
    src.toPenalty none = .ok (dst, pen) ∧ src.Feas x0 ∧ OptimalIn dst.Feas dst.objective x ∧ ¬ src.Feas x := by
  have hv : halfQP.vars = [⟨"x", 0, 1, .binary⟩] := by decide +kernel
  have hdv : halfDst.vars = [⟨"x", 0, 1, .binary⟩] := by decide +kernel
  have hl : halfQP.lins = [⟨"c", ⟨1, [(0, 1 / 2)]⟩, .eq, 1 / 2⟩] := by decide +kernel
  have hq : halfQP.quads = [] := by decide +kernel
  have hdl : halfDst.lins = [] := by decide +kernel
  have hdq : halfDst.quads = [] := by decide +kernel
  have ho : halfDst.objective = ⟨25000, ⟨1, [(0, -20000)]⟩, ⟨1, [((0, 0), 25000)]⟩, .minimize⟩ := by decide +kernel
  refine ⟨halfQP, halfDst, 100000, fun _ => 1, fun _ => 0, by decide +kernel, by decide +kernel, by decide +kernel,
    ⟨?_, ?_, ?_⟩, ⟨⟨?_, ?_, ?_⟩, ?_⟩, ?_⟩
  · intro i v hi
    have := List.mem_of_getElem? hi
    rw [hv, List.mem_singleton] at this
    subst this; norm_num
  · intro i v _ _; exact ⟨1, by simp⟩
  · rw [sat_iff, hl, hq]; simp [LinCst.Holds, Sense.rel, LinExpr.val, Dict.sum]
  · intro i v hi
    have := List.mem_of_getElem? hi
    rw [hdv, List.mem_singleton] at this
    subst this; norm_num
  · intro i v _ _; exact ⟨0, by simp⟩
  · rw [sat_iff, hdl, hdq]; simp
  · intro y hy
    obtain ⟨h1, h2, _⟩ := hy
    have hb := h1 0 _ (by rw [hdv]; rfl)
    have hi := h2 0 _ (by rw [hdv]; rfl) (by simp)
    rw [ho]
    simp only [Objective.val, LinExpr.val, QuadExpr.val, Dict.sum, ObjSense.value, List.map_cons, List.map_nil,
      List.sum_cons, List.sum_nil]
    rcases binary_val hb.1 hb.2 hi with h | h <;> rw [h] <;> norm_num
  · rintro ⟨_, _, h⟩
    rw [sat_iff, hl] at h
    have := h.1 _ (List.mem_singleton.mpr rfl)
    simp [LinCst.Holds, Sense.rel, LinExpr.val, Dict.sum] at this

/-- A product of integer variables with a large range. -/
def wideQP : QP :=
  (runCalls (QP.empty "") [.addVar 0 1 .integer (some "x"), .addVar 0 100 .integer (some "y"),
    .linear (.dict [(.name "x", 1)]) (.str "==") 0 (some "c"),
    .objective .minimize 0 (.dict []) (.dict [((.name "x", .name "y"), -1)])]).2

/-- Its conversion. -/
def wideDst : QP := match wideQP.toPenalty none with | .ok (d, _) => d | .error _ => QP.empty ""

/-- **C20 fails** for integer variables: the penalty ignores the ranges of the variables.  For `minimize -x y` subject
to `x = 0` with `x` in `[0, 1]` and `y` in `[0, 100]` the penalty is 2 and the optimal point is `(1, 100)`. -/
theorem C20_violated_integer : ∃ (src dst : QP) (pen : ℚ) (x0 x : Nat → ℚ), src.WF ∧
    (∀ v ∈ src.vars, v.vartype = .integer) ∧ (∀ c ∈ src.allCsts, c.IntCoeffs) ∧
    src.toPenalty none = .ok (dst, pen) ∧ src.Feas x0 ∧ OptimalIn dst.Feas dst.objective x ∧ ¬ src.Feas x := by
  have hv : wideQP.vars = [⟨"x", 0, 1, .integer⟩, ⟨"y", 0, 100, .integer⟩] := by decide +kernel
  have hdv : wideDst.vars = [⟨"x", 0, 1, .integer⟩, ⟨"y", 0, 100, .integer⟩] := by decide +kernel
  have hl : wideQP.lins = [⟨"c", ⟨2, [(0, 1)]⟩, .eq, 0⟩] := by decide +kernel
  have hq : wideQP.quads = [] := by decide +kernel
  have hdl : wideDst.lins = [] := by decide +kernel
  have hdq : wideDst.quads = [] := by decide +kernel
  have ho : wideDst.objective = ⟨0, ⟨2, []⟩, ⟨2, [((0, 1), -1), ((0, 0), 2)]⟩, .minimize⟩ := by decide +kernel
  refine ⟨wideQP, wideDst, 2, fun _ => 0, fun i => if i = 0 then 1 else 100, by decide +kernel, by decide +kernel, ?_,
    by decide +kernel, ⟨?_, ?_, ?_⟩, ⟨⟨?_, ?_, ?_⟩, ?_⟩, ?_⟩
  · intro c hc
    simp only [QP.allCsts, hl, hq, List.map_cons, List.map_nil, List.append_nil, List.mem_singleton] at hc
    subst hc
    intro q hq
    simp only [List.mem_singleton] at hq
    subst hq; exact ⟨1, by simp⟩
  · intro i v hi
    have := List.mem_of_getElem? hi
    rw [hv] at this
    simp only [List.mem_cons, List.not_mem_nil, or_false] at this
    rcases this with rfl | rfl <;> norm_num
  · intro i v _ _; exact ⟨0, by simp⟩
  · rw [sat_iff, hl, hq]; simp [LinCst.Holds, Sense.rel, LinExpr.val, Dict.sum]
  · intro i v hi
    have hlt := (List.getElem?_eq_some_iff.mp hi).1
    rw [hdv] at hi hlt
    have : i = 0 ∨ i = 1 := by simp at hlt; omega
    rcases this with rfl | rfl <;> (simp at hi; subst hi; norm_num)
  · intro i v _ _
    by_cases h : i = 0
    · exact ⟨1, by simp [h]⟩
    · exact ⟨100, by simp [h]⟩
  · rw [sat_iff, hdl, hdq]; simp
  · intro y hy
    obtain ⟨h1, h2, _⟩ := hy
    have hb := h1 0 _ (by rw [hdv]; rfl)
    have hi := h2 0 _ (by rw [hdv]; rfl) (by simp)
    have hb1 := h1 1 _ (by rw [hdv]; rfl)
    rw [ho]
    simp only [Objective.val, LinExpr.val, QuadExpr.val, Dict.sum, ObjSense.value, List.map_cons, List.map_nil,
      List.sum_cons, List.sum_nil]
    rcases binary_val hb.1 hb.2 hi with h | h <;> rw [h] <;> norm_num
    have := hb1.2
    simp only at this
    linarith
  · rintro ⟨_, _, h⟩
    rw [sat_iff, hl] at h
    have := h.1 _ (List.mem_singleton.mpr rfl)
    simp [LinCst.Holds, Sense.rel, LinExpr.val, Dict.sum] at this

/-- Common part of the exactness theorems. -/
theorem exact_core {penalty : Option ℚ} {src dst : QP} {pen : ℚ} (hs : src.WF)
    (hv : ∀ v ∈ src.vars, v.vartype ≠ .continuous ∧ 0 ≤ v.lb ∧ v.ub ≤ 1) (hb : src.BinBoundsOK)
    (hq : src.quads = [])
    (hi : ∀ c ∈ src.lins, (∃ z : Int, c.rhs = z) ∧ ∀ q ∈ c.linear.coeffs, ∃ z : Int, q.2 = z)
    (h : src.toPenalty penalty = .ok (dst, pen)) (hpen : absSum src.objective < pen) (hfeas : ∃ x, src.Feas x)
    {x : Nat → ℚ} (hx : OptimalIn dst.Feas dst.objective x) :
    OptimalIn src.Feas src.objective x ∧ dst.objective.val x = src.objective.val x := by
  have hf := toPenalty_facts hs h
  have hadm := plain_admits_iff hf.vars hb
  have hval : ∀ y, src.InBounds y → src.Integral y → ∀ i < src.numVars, y i = 0 ∨ y i = 1 := by
    intro y h1 h2 i hi'
    obtain ⟨v, hv'⟩ := lt_numVars hi'
    have hm := hv v (List.mem_of_getElem? hv')
    have b := h1 i v hv'
    exact binary_val (hm.2.1.trans b.1) (b.2.trans hm.2.2) (h2 i v hv' hm.1)
  refine penalty_exact hs hf hq (fun y hy => ?_) hadm ?_ hpen hfeas hx
  · obtain ⟨h1, h2⟩ := (hadm y).mp hy
    exact hval y h1 h2
  · intro y h1 h2
    apply residual2_int
    intro c hc
    refine ⟨?_, (hi c hc).1⟩
    refine Dict.sum_int _ _ (fun q hq' => ⟨(hi c hc).2 q hq', ?_⟩)
    have hlt := lt_of_lt_of_le ((hs.lins c hc).1.bound q.1 (List.mem_map_of_mem hq')) (hs.lins c hc).2
    rcases hval y h1 h2 q.1 hlt with h | h
    · exact ⟨0, by simp [h]⟩
    · exact ⟨1, by simp [h]⟩

/-- **C20, the automatic penalty is large enough** (the part that holds).  Full statement: for every program accepted
by the converter that has a feasible solution, every optimal solution of the result is feasible and optimal for the
source.  Missing (false): fractional constraint data (`C20_violated`), variables with more than two values
(`C20_violated_integer`), quadratic constraints and tightened binary bounds (C21). -/
theorem C20_exact_partial (src dst : QP) (pen : ℚ) (hs : src.WF)
    (hv : ∀ v ∈ src.vars, v.vartype ≠ .continuous ∧ 0 ≤ v.lb ∧ v.ub ≤ 1) (hb : src.BinBoundsOK)
    (hq : src.quads = [])
    (hi : ∀ c ∈ src.lins, (∃ z : Int, c.rhs = z) ∧ ∀ q ∈ c.linear.coeffs, ∃ z : Int, q.2 = z)
    (h : src.toPenalty none = .ok (dst, pen)) (hfeas : ∃ x, src.Feas x)
    (x : Nat → ℚ) (hx : OptimalIn dst.Feas dst.objective x) :
    OptimalIn src.Feas src.objective x ∧ dst.objective.val x = src.objective.val x := by
  refine exact_core hs hv hb hq hi h ?_ hfeas hx
  rw [(toPenalty_facts hs h).penEq]
  simp only [Option.getD_none]
  rw [autoPenalty_eq hi]
  linarith

/-- **C20, given penalties**: the same for a penalty chosen by the user, if it exceeds the sum of the absolute values
of the objective's linear and quadratic coefficients. -/
theorem C20_exact_given (src dst : QP) (p pen : ℚ) (hs : src.WF)
    (hv : ∀ v ∈ src.vars, v.vartype ≠ .continuous ∧ 0 ≤ v.lb ∧ v.ub ≤ 1) (hb : src.BinBoundsOK)
    (hq : src.quads = [])
    (hi : ∀ c ∈ src.lins, (∃ z : Int, c.rhs = z) ∧ ∀ q ∈ c.linear.coeffs, ∃ z : Int, q.2 = z)
    (hp : (src.objective.linear.coeffs.map fun q => |q.2|).sum + (src.objective.quadratic.coeffs.map fun q => |q.2|).sum < p)
    (h : src.toPenalty (some p) = .ok (dst, pen)) (hfeas : ∃ x, src.Feas x)
    (x : Nat → ℚ) (hx : OptimalIn dst.Feas dst.objective x) :
    OptimalIn src.Feas src.objective x ∧ dst.objective.val x = src.objective.val x := by
  refine exact_core hs hv hb hq hi h ?_ hfeas hx
  rw [(toPenalty_facts hs h).penEq]
  exact hp

example : penQP.WF ∧ (∀ v ∈ penQP.vars, v.vartype ≠ .continuous ∧ 0 ≤ v.lb ∧ v.ub ≤ 1) ∧
    (∀ v ∈ penQP.vars, v.vartype = .binary → v.lb = 0 ∧ v.ub = 1) ∧ penQP.quads = [] ∧
    (∀ c ∈ penQP.lins, c.rhs.den = 1 ∧ ∀ q ∈ c.linear.coeffs, q.2.den = 1) ∧
    penQP.toPenalty none = .ok (penDst, 6) ∧ penQP.isFeasible [0, 1, 1] = .ok true ∧
    (penQP.objective.linear.coeffs.map fun q => |q.2|).sum +
      (penQP.objective.quadratic.coeffs.map fun q => |q.2|).sum < 6 := by decide +kernel

/-! ## C21 -/

/-- **C21 fails** for quadratic constraints: the point `(0, 0)` violates the constraint of the source, but the result
admits it with an unchanged objective value. -/
theorem C21_violated : ∃ (src dst : QP) (pen : ℚ) (x : Nat → ℚ), src.WF ∧ src.BinBoundsOK ∧
    src.toPenalty (some pen) = .ok (dst, pen) ∧ ¬ src.Sat x ∧ dst.Feas x ∧
    dst.objective.val x = src.objective.val x := by
  have hv : quadIneqQP.vars = [⟨"x", 0, 1, .binary⟩, ⟨"y", 0, 1, .binary⟩] := by decide +kernel
  have hdv : quadIneqDst.vars = [⟨"x", 0, 1, .binary⟩, ⟨"y", 0, 1, .binary⟩] := by decide +kernel
  have hq : quadIneqQP.quads = [⟨"q", ⟨2, []⟩, ⟨2, [((0, 1), 1)]⟩, .ge, 1⟩] := by decide +kernel
  have hdl : quadIneqDst.lins = [] := by decide +kernel
  have hdq : quadIneqDst.quads = [] := by decide +kernel
  have ho : quadIneqDst.objective = quadIneqQP.objective := by decide +kernel
  refine ⟨quadIneqQP, quadIneqDst, 3, fun _ => 0, by decide +kernel, ?_, by decide +kernel, ?_, ⟨?_, ?_, ?_⟩, by rw [ho]⟩
  · intro v hm _
    rw [hv] at hm
    simp only [List.mem_cons, List.not_mem_nil, or_false] at hm
    rcases hm with rfl | rfl <;> simp
  · intro h
    rw [sat_iff, hq] at h
    have := h.2 _ (List.mem_singleton.mpr rfl)
    simp [QuadCst.Holds, Sense.rel, LinExpr.val, QuadExpr.val, Dict.sum] at this
    norm_num at this
  · intro i v hi
    have := List.mem_of_getElem? hi
    rw [hdv] at this
    simp only [List.mem_cons, List.not_mem_nil, or_false] at this
    rcases this with rfl | rfl <;> norm_num
  · intro i v _ _; exact ⟨0, by simp⟩
  · rw [sat_iff, hdl, hdq]; simp

/-- Conversion of the program with a fixed binary variable. -/
def fixedPenDst : QP := match fixedBinQP.toPenalty none with | .ok (d, _) => d | .error _ => QP.empty ""

/-- **C21 fails** for tightened bounds of binary variables: the source fixes `b` to one, the result admits zero with an
unchanged objective value. -/
theorem C21_violated_bounds : ∃ (src dst : QP) (pen : ℚ) (x : Nat → ℚ), src.WF ∧ src.allCsts.length = 0 ∧
    src.toPenalty none = .ok (dst, pen) ∧ ¬ src.InBounds x ∧ dst.Feas x ∧
    dst.objective.val x = src.objective.val x := by
  have hv : fixedBinQP.vars = [⟨"b", 1, 1, .binary⟩, ⟨"x", 0, 2, .integer⟩] := rfl
  have hdv : fixedPenDst.vars = [⟨"b", 0, 1, .binary⟩, ⟨"x", 0, 2, .integer⟩] := by decide +kernel
  have hdl : fixedPenDst.lins = [] := by decide +kernel
  have hdq : fixedPenDst.quads = [] := by decide +kernel
  refine ⟨fixedBinQP, fixedPenDst, 1, fun _ => 0, by decide +kernel, by decide +kernel, by decide +kernel, ?_,
    ⟨?_, ?_, ?_⟩, by decide +kernel⟩
  · intro h
    have := (h 0 ⟨"b", 1, 1, .binary⟩ (by rw [hv]; rfl)).1
    norm_num at this
  · intro i v hi
    have := List.mem_of_getElem? hi
    rw [hdv] at this
    simp only [List.mem_cons, List.not_mem_nil, or_false] at this
    rcases this with rfl | rfl <;> norm_num
  · intro i v _ _; exact ⟨0, by simp⟩
  · rw [sat_iff, hdl, hdq]; simp

/-- **C21, no linear constraint is lost** (the part that holds).  Full statement: every constraint and every bound
that excludes a point in the source penalises or excludes it in the result.  Missing (false): quadratic constraints
(`C21_violated`) and tightened bounds of binary variables (`C21_violated_bounds`).  Shown for positive penalties: the
same points are within bounds and integral, points that satisfy the linear constraints keep their value, all others
get a strictly worse one. -/
theorem C21_accounted_partial (penalty : Option ℚ) (src dst : QP) (pen : ℚ) (hs : src.WF) (hb : src.BinBoundsOK)
    (h : src.toPenalty penalty = .ok (dst, pen)) (hp : 0 < pen) (x : Nat → ℚ) :
    ((dst.InBounds x ∧ dst.Integral x) ↔ (src.InBounds x ∧ src.Integral x)) ∧
    ((∀ c ∈ src.lins, c.sense.rel (c.linear.val x) c.rhs) → dst.objective.val x = src.objective.val x) ∧
    ((∃ c ∈ src.lins, ¬ c.sense.rel (c.linear.val x) c.rhs) →
      src.objective.sense.value * src.objective.val x < src.objective.sense.value * dst.objective.val x) := by
  have hf := toPenalty_facts hs h
  have hz := residual2_eq_zero hf.eqs x
  refine ⟨plain_admits_iff hf.vars hb x, ?_, ?_⟩
  · intro hc
    rw [hf.obj, hz.mpr hc]; ring
  · rintro ⟨c, hc, hn⟩
    have hne : residual2 src.lins x ≠ 0 := fun h0 => hn (hz.mp h0 c hc)
    have hpos : 0 < residual2 src.lins x := lt_of_le_of_ne (residual2_nonneg _ _) (Ne.symm hne)
    rw [hf.obj]
    have hsq := sense_sq src.objective.sense
    have : src.objective.sense.value * (src.objective.val x + src.objective.sense.value * pen * residual2 src.lins x) =
        src.objective.sense.value * src.objective.val x + pen * residual2 src.lins x := by
      linear_combination (pen * residual2 src.lins x) * hsq
    rw [this]
    have := mul_pos hp hpos
    linarith

/-- Automatic penalties are positive. -/
theorem C21_auto_positive (src dst : QP) (pen : ℚ) (hs : src.WF) (h : src.toPenalty none = .ok (dst, pen)) :
    0 < pen := by
  rw [(toPenalty_facts hs h).penEq]
  simp only [Option.getD_none, autoPenalty]
  split
  · norm_num
  · rw [List.sum_cons, List.sum_append]
    have h1 : ∀ l : List ℚ, 0 ≤ (l.map abs).sum := fun l => List.sum_nonneg (by
      intro a ha
      obtain ⟨b, _, rfl⟩ := List.mem_map.mp ha
      exact abs_nonneg b)
    have := h1 src.objective.linear.coeffs.values
    have := h1 (src.objective.quadratic.toDict false).values
    linarith

example : penQP.WF ∧ penQP.toPenalty none = .ok (penDst, 6) ∧ (0 : ℚ) < 6 ∧
    (∃ c ∈ penQP.lins, c.linear.val (pt [1, 0, 1]) ≠ c.rhs) ∧
    (∀ c ∈ penQP.lins, c.linear.val (pt [0, 1, 1]) = c.rhs) := by decide +kernel

end Verif
