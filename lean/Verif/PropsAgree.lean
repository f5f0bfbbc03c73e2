import Verif.PropsCplex
import Verif.PropsRecursiveExact

/-!
# C107: optimizers with exact solvers agree
-/

namespace Verif

/-- Optimal points have the same value. -/
theorem optimal_val {F : (Nat → ℚ) → Prop} {o : Objective} {x y : Nat → ℚ} (hx : OptimalIn F o x) (hy : OptimalIn F o y) :
    o.val x = o.val y := by
  have h1 := hx.2 y hy.1
  have h2 := hy.2 x hx.1
  cases hs : o.sense <;> simp only [hs, ObjSense.value] at h1 h2 <;> linarith

/-- A feasible program has no violated constraint without terms. -/
theorem noFalse_of_feas {p : QP} {x : Nat → ℚ} (h : p.Feas x) : p.NoFalse := by
  obtain ⟨-, -, hs⟩ := h
  constructor
  · intro c hc h0
    have := hs (.lin c) (List.mem_append_left _ (List.mem_map.mpr ⟨c, hc, rfl⟩))
    simpa [Cst.sense, Cst.val, Cst.rhs, LinExpr.val, h0, Dict.sum] using this
  · intro c hc h0 h1
    have := hs (.quad c) (List.mem_append_right _ (List.mem_map.mpr ⟨c, hc, rfl⟩))
    simpa [Cst.sense, Cst.val, Cst.rhs, LinExpr.val, QuadExpr.val, h0, h1, Dict.sum] using this

/-- **C107**, partial: for every feasible program that the conversion to a QUBO accepts and treats exactly, the CPLEX
optimizer, the minimum eigen optimizer and the recursive one, each with an exact solver, all return with the status SUCCESS and
the same `fval`.  Full statement: for all programs that they accept.  Missing (false): programs whose QUBO is not exact
(`C107_violated`), coefficients below the cutoff of the recursive optimizer (`C80_violated`), binary variables with other bounds
(`C73_violated`). -/
theorem C107_agree_partial (p : QP) (hp : p.WF) (hsh : p.ShapeOK) (hb : p.BinBoundsOK)
    (hi : ∀ v ∈ p.vars, v.vartype = .integer → (∃ z : Int, v.lb = z) ∧ ∃ z : Int, v.ub = z)
    (hpr : ProductsOK p p.objective.quadratic) (st : QuboState) (h : p.toQubo none = .ok st)
    (hn : 0 < st.dst.numVars) (hc : "__CONSTANT__" ∉ st.dst.vars.map Variable.name) (hfeas : ∃ x, p.Feas x)
    (g : ℚ) (hg : 2 / 10 ^ 10 < g) (hco : st.dst.objective.MultiplesOf g)
    {solver solver' solver'' : QubitOp → Option Eigenstate} (hsol : ExactSolver solver) (hsol' : ExactSolver solver')
    (hsol'' : ExactSolver solver'') {cplex : DModel → CplexOutcome} (hx : CplexSound cplex) (hx' : CplexComplete cplex)
    (m fuel : Nat) (hm : 1 ≤ m) (hf : st.dst.numVars < fuel) :
    ∃ r1 r2 r3 f, cplexSolve docplexBool cplex p = .ok r1 ∧ minEigenSolve solver [quboConverter none] p = .ok r2 ∧
      recursiveWith (fun _ => solver') solver'' none none m p fuel = some (.ok r3) ∧
      r1.fval = some f ∧ r2.fval = some f ∧ r3.result.fval = some f ∧
      r1.status = .success ∧ r2.status = .success ∧ r3.result.status = .success := by
  obtain ⟨r2, y, a1, a2, a3, a4, a5, a6⟩ := C28_optimum_partial p hp hsh hb hi hpr st h hn hfeas solver (by
    intro op offset hop
    obtain ⟨hq, _⟩ := toIsing_shift hop
    obtain ⟨e, g1, g2, g3⟩ := hsol op (by omega) (toIsing_diagonal hop).1 (toIsing_diagonal hop).2
    rw [hq] at g2 g3
    exact ⟨e, g1, g2, g3⟩)
  obtain ⟨r3, z, b1, b2, b3, b4, b5, b6⟩ := C80_optimum_partial p hp hsh hb hi hpr st h hn hc hfeas g hg hco (fun _ => solver')
    solver'' (fun _ => hsol') hsol'' none none m fuel hm hf
  obtain ⟨x0, hx0⟩ := hfeas
  have hnf := noFalse_of_feas hx0
  obtain ⟨r1, hr1⟩ := C73_accepts_partial (trivial := docplexBool) (fun _ => rfl) hx hx' hp hsh hb hnf ⟨_, a4⟩
  obtain ⟨x, c1, c2, c3, c4, c5⟩ := C73_optimal_partial (trivial := docplexBool) (fun _ => rfl) hx hp hb hnf hr1
  exact ⟨r1, r2, r3, _, hr1, a1, b1, c2, by rw [a5, optimal_val a4 c5], by rw [b5, optimal_val b4 c5], c3, a6, b6⟩

/-- The example of the recursive optimizer: all three find the value 4. -/
example : ∃ r1 r2 r3 f, cplexSolve docplexBool idealCplex recTestQP = .ok r1 ∧
    minEigenSolve exhaustive [quboConverter none] recTestQP = .ok r2 ∧
    recursiveWith (fun _ => exhaustive) exhaustive none none 1 recTestQP 10 = some (.ok r3) ∧
    r1.fval = some f ∧ r2.fval = some f ∧ r3.result.fval = some f ∧
    r1.status = .success ∧ r2.status = .success ∧ r3.result.status = .success := by
  have hv : recTestQP.vars = [⟨"x", 0, 2, .integer⟩, ⟨"b", 0, 1, .binary⟩] := by decide +kernel
  refine C107_agree_partial recTestQP (by decide +kernel) (by decide +kernel) (by unfold QP.BinBoundsOK; decide +kernel) ?_ ?_
    recTestState (by decide +kernel) (by decide +kernel) (by decide +kernel) ⟨pt [2, 0], ?_⟩ 1 (by norm_num)
    (multiplesOf_one (by decide +kernel)) exhaustive_exact exhaustive_exact exhaustive_exact idealCplex_right.1
    idealCplex_right.2 1 10 (le_refl _) (by decide +kernel)
  · rw [hv]
    intro v h _
    simp only [List.mem_cons, List.not_mem_nil, or_false] at h
    rcases h with rfl | rfl
    · exact ⟨⟨0, by norm_num⟩, 2, by norm_num⟩
    · exact ⟨⟨0, by norm_num⟩, 1, by norm_num⟩
  · have ho : Assoc.keys recTestQP.objective.quadratic.coeffs = [(0, 1)] := by decide +kernel
    intro k hk v w h1 h2 _ t2
    rw [ho] at hk
    rw [hv] at h1 h2
    rw [List.mem_singleton.mp hk] at h1 h2
    simp at h1 h2
    rw [← h2] at t2
    simp at t2
  · refine ⟨?_, ?_, ?_⟩
    · intro i v hi
      rw [hv] at hi
      match i, hi with
      | 0, hi => simp at hi; subst hi; norm_num [pt]
      | 1, hi => simp at hi; subst hi; norm_num [pt]
    · intro i v _ _
      match i with
      | 0 => exact ⟨2, by simp [pt]⟩
      | 1 => exact ⟨0, by simp [pt]⟩
      | i + 2 => exact ⟨0, by simp [pt]⟩
    · have : ∀ c ∈ recTestQP.allCsts, c.sense = .le ∧ c.val (pt [2, 0]) ≤ c.rhs := by decide +kernel
      intro c hc
      rw [(this c hc).1]
      exact (this c hc).2

/-- **C107 fails** where the QUBO is not exact: for `maximize 5 x y - 19 x` on `[1, 4]²` every exact CPLEX leads to the value 4,
an exact eigensolver to the value 2, and both results have the status SUCCESS. -/
theorem C107_violated : prodMaxQP.WF ∧ prodMaxQP.ShapeOK ∧ ExactSolver exhaustive ∧
    (∀ cplex, CplexSound cplex → CplexComplete cplex → ∃ r, cplexSolve docplexBool cplex prodMaxQP = .ok r ∧
      r.fval = some 4 ∧ r.status = .success) ∧
    ∃ r, minEigenSolve exhaustive [quboConverter none] prodMaxQP = .ok r ∧ r.fval = some 2 ∧ r.status = .success := by
  have hv : prodMaxQP.vars = [⟨"x", 1, 4, .integer⟩, ⟨"y", 1, 4, .integer⟩] := by decide +kernel
  have hcs : prodMaxQP.allCsts = [] := by decide +kernel
  have ho : ∀ x, prodMaxQP.objective.val x = -19 * x 0 + 5 * (x 0 * x 1) := by
    intro x
    rw [show prodMaxQP.objective = ⟨0, ⟨2, [(0, -19)]⟩, ⟨2, [((0, 1), 5)]⟩, .maximize⟩ by decide +kernel]
    simp [Objective.val, LinExpr.val, QuadExpr.val, Dict.sum]
  have hopt : OptimalIn prodMaxQP.Feas prodMaxQP.objective (pt [4, 4]) := by
    refine ⟨⟨?_, ?_, ?_⟩, ?_⟩
    · intro i v hi
      rw [hv] at hi
      match i, hi with
      | 0, hi => simp at hi; subst hi; norm_num [pt]
      | 1, hi => simp at hi; subst hi; norm_num [pt]
    · intro i v _ _
      match i with
      | 0 => exact ⟨4, by simp [pt]⟩
      | 1 => exact ⟨4, by simp [pt]⟩
      | i + 2 => exact ⟨0, by simp [pt]⟩
    · intro c hc
      rw [hcs] at hc
      simp at hc
    · rintro y ⟨hb, -⟩
      have h0 := hb 0 ⟨"x", 1, 4, .integer⟩ (by rw [hv]; rfl)
      have h1 := hb 1 ⟨"y", 1, 4, .integer⟩ (by rw [hv]; rfl)
      simp only at h0 h1
      rw [show prodMaxQP.objective.sense = .maximize by decide +kernel, ho, ho]
      simp only [ObjSense.value, pt]
      norm_num
      nlinarith [mul_nonneg (by linarith : (0 : ℚ) ≤ y 0) (by linarith : (0 : ℚ) ≤ 4 - y 1)]
  have hbb : prodMaxQP.BinBoundsOK := by unfold QP.BinBoundsOK; decide +kernel
  have hsh : prodMaxQP.ShapeOK := by decide +kernel
  have hwf : prodMaxQP.WF := by decide +kernel
  refine ⟨hwf, hsh, exhaustive_exact, fun cplex hx hx' => ?_, ?_⟩
  · obtain ⟨r, hr⟩ := C73_accepts_partial (trivial := docplexBool) (fun _ => rfl) hx hx' hwf hsh hbb (noFalse_of_feas hopt.1)
      ⟨_, hopt⟩
    obtain ⟨x, -, c2, c3, -, c5⟩ := C73_optimal_partial (trivial := docplexBool) (fun _ => rfl) hx hwf hbb
      (noFalse_of_feas hopt.1) hr
    refine ⟨r, hr, ?_, c3⟩
    rw [c2, ← optimal_val hopt c5, ho]
    simp only [pt]
    norm_num
  · cases hr : minEigenSolve exhaustive [quboConverter none] prodMaxQP with
    | error e =>
      exact absurd (show (match minEigenSolve exhaustive [quboConverter none] prodMaxQP with
        | .ok _ => true | .error _ => false) = true by decide +kernel) (by rw [hr]; simp)
    | ok r =>
      refine ⟨r, rfl, ?_⟩
      have h : (match minEigenSolve exhaustive [quboConverter none] prodMaxQP with
        | .ok r => decide (r.fval = some 2 ∧ r.status = .success) | .error _ => false) = true := by decide +kernel
      rw [hr] at h
      simpa using h

end Verif
