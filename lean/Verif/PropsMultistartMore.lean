import Verif.PropsMultistart
import Mathlib.MeasureTheory.Constructions.Pi
import Mathlib.MeasureTheory.Measure.Typeclasses.Probability
import Mathlib.MeasureTheory.Constructions.BorelSpace.Basic
import Mathlib.Topology.Instances.Rat

/-!
# C106: more trials of the multi-start optimizers
-/

namespace Verif

open MeasureTheory

/-- **C106** (more trials), partial: for minimization the value of a run with more trials, the draws and answers of the first
trials being the same, is at most that of the shorter run.  Full statement: the result of the longer run is at least as good,
for both senses and with feasible points before infeasible ones.  Missing: maximization (`C106_trials_violated`) and
feasibility (`C106_feasible_violated`), where it is false. -/
theorem C106_trials_partial {trials trials' : Nat} (hle : trials ≤ trials') (clip : ℚ) (u : Nat → Nat → ℚ)
    (minimize : Nat → List ℚ → Except Err (List ℚ)) (p : QP) (hs : p.objective.sense = .minimize) (r r' : Result)
    (h : multiStartSolve trials clip u minimize p = .ok r) (h' : multiStartSolve trials' clip u minimize p = .ok r') :
    ∃ f f', r.fval = some f ∧ r'.fval = some f' ∧ f' ≤ f := by
  obtain ⟨t, x, ht, hx, -, hf, -⟩ := C31_best_partial trials clip u minimize p hs r h
  obtain ⟨-, x', -, -, -, hf', -, hmin⟩ := C31_best_partial trials' clip u minimize p hs r' h'
  obtain ⟨y, hy, hyle⟩ := hmin t (by omega)
  rw [hy.unique hx] at hyle
  exact ⟨_, _, hf, hf', hyle⟩

/-- The answers (3, 3), (2, 2), (1, 1) of up to three trials. -/
example : multiStartSolve 3 100 (fun _ _ => 1 / 3) (fun t _ => .ok [3 - t, 3 - t]) minParabolaQP = .ok minParabolaResult ∧
    multiStartSolve 1 100 (fun _ _ => 1 / 3) (fun t _ => .ok [3 - t, 3 - t]) minParabolaQP =
      .ok ⟨some [3, 3], some 3, minParabolaQP.vars, some [("x", 3), ("y", 3)], .success, [], []⟩ ∧
    minParabolaResult.fval = some (-1) := by decide +kernel

/-- **C106** (feasible answers), partial: for minimization, if a feasible answer has a smaller value than every infeasible
one, the status is SUCCESS, and `fval` is the smallest value of the feasible answers.  Missing: infeasible answers with smaller
values than the feasible ones, where it is false (`C106_feasible_violated`). -/
theorem C106_feasible_partial (trials : Nat) (clip : ℚ) (u : Nat → Nat → ℚ)
    (minimize : Nat → List ℚ → Except Err (List ℚ)) (p : QP) (hs : p.objective.sense = .minimize) (r : Result)
    (h : multiStartSolve trials clip u minimize p = .ok r) {t : Nat} {y : List ℚ} (ht : t < trials)
    (hy : Answer clip u minimize p t y) (hmin : ∀ t' z, Answer clip u minimize p t' z → ¬ p.FeasTol (pt z) →
      p.objective.val (pt y) < p.objective.val (pt z)) :
    r.status = .success ∧ ∃ f, r.fval = some f ∧
      ∀ t' < trials, ∀ z, Answer clip u minimize p t' z → f ≤ p.objective.val (pt z) := by
  obtain ⟨t0, x, -, hx, -, hf, hst, hbest⟩ := C31_best_partial trials clip u minimize p hs r h
  obtain ⟨y', hy', hle⟩ := hbest t ht
  rw [hy'.unique hy] at hle
  refine ⟨hst.mpr ?_, _, hf, fun t' ht' z hz => ?_⟩
  · by_contra hn
    exact absurd (hmin t0 x hx hn) (not_lt.mpr hle)
  · obtain ⟨z', hz', hzle⟩ := hbest t' ht'
    rwa [hz'.unique hz] at hzle

/-- `minimize x` with `0 ≤ x ≤ 2` and `x² ≥ 1`. -/
def hillQP : QP :=
  (runCalls (QP.empty "") [.addVar 0 2 .continuous (some "x"),
    .quadratic (.dict []) (.dict [((.name "x", .name "x"), 1)]) (.str ">=") 1 (some "c"),
    .objective .minimize 0 (.dict [(.name "x", 1)]) (.dict [])]).2

/-- The answers 3 (infeasible, larger) and 1 (feasible). -/
example : multiStartSolve 2 100 (fun _ _ => 1 / 2) (fun t _ => .ok [3 - 2 * t]) hillQP =
      .ok ⟨some [1], some 1, hillQP.vars, some [("x", 1)], .success, [], []⟩ ∧
    hillQP.isFeasible [3] = .ok false ∧ hillQP.isFeasible [1] = .ok true := by decide +kernel

/-- A local optimizer for it: at 0 the gradient of the constraint is zero and there is no direction to go, from everywhere else
it walks to the optimum 1. -/
def hillSolver : Nat → Fn → (List ℚ → Except Err (List ℚ)) → List ℚ → List Fn → List Fn → List (ℚ × ℚ) →
    Except Err (List ℚ) := fun _ _ _ x0 _ _ _ => if x0 = [0] then .ok [0] else .ok [1]

/-- **C106 fails** for feasible answers: of two trials the first ends at the infeasible point 0 and the second at the optimum 1.
The result is the infeasible one, because only the objective values are compared. -/
theorem C106_feasible_violated : hillQP.WF ∧ hillQP.ShapeOK ∧ hillQP.objective.sense = .minimize ∧
    hillQP.Feas (pt [1]) ∧ (∀ x, hillQP.Feas x → 1 ≤ hillQP.objective.val x) ∧
    (∃ t < 2, Answer 100 (fun _ _ => 1 / 2) (fun t x0 => hillSolver t (solverObjective hillQP) (solverGradient hillQP) x0
      (slsqpEq hillQP.csts) (slsqpIneq hillQP.csts) (slsqpBounds hillQP)) hillQP t [1]) ∧
    ∃ r, slsqpSolve hillSolver 2 100 (fun _ _ => 1 / 2) hillQP = .ok r ∧ r.status = .infeasible ∧ r.x = some [0] := by
  have hfeas : ∀ x, hillQP.Feas x ↔ (0 ≤ x 0 ∧ x 0 ≤ 2) ∧ 1 ≤ x 0 * x 0 := by
    intro x
    unfold QP.Feas QP.InBounds QP.Integral QP.Sat
    rw [show hillQP.vars = [⟨"x", 0, 2, .continuous⟩] by decide +kernel,
      show hillQP.allCsts = [.quad ⟨"c", ⟨1, []⟩, ⟨1, [((0, 0), 1)]⟩, .ge, 1⟩] by decide +kernel]
    have hi : ∀ i v, ([⟨"x", 0, 2, .continuous⟩] : List Variable)[i]? = some v → i = 0 ∧ v = ⟨"x", 0, 2, .continuous⟩ := by
      intro i v h
      match i, h with
      | 0, h => exact ⟨rfl, by simpa [eq_comm] using h⟩
      | i + 1, h => simp at h
    constructor
    · rintro ⟨b, -, hs⟩
      refine ⟨b 0 _ rfl, ?_⟩
      simpa [Cst.sense, Cst.val, Cst.rhs, Sense.rel, LinExpr.val, QuadExpr.val, Dict.sum] using hs _ (List.mem_singleton.mpr rfl)
    · rintro ⟨b, hs⟩
      refine ⟨?_, ?_, ?_⟩
      · intro i v hv
        obtain ⟨rfl, rfl⟩ := hi i v hv
        exact b
      · intro i v hv hne
        obtain ⟨rfl, rfl⟩ := hi i v hv
        simp at hne
      · intro d hd
        rw [List.mem_singleton.mp hd]
        simpa [Cst.sense, Cst.val, Cst.rhs, Sense.rel, LinExpr.val, QuadExpr.val, Dict.sum] using hs
  refine ⟨by decide +kernel, by decide +kernel, by decide +kernel, (hfeas _).mpr (by decide +kernel), ?_, ⟨1, by norm_num, [1],
    by decide +kernel, by decide +kernel⟩, ⟨some [0], some 0, hillQP.vars, some [("x", 0)], .infeasible, [], []⟩,
    by decide +kernel, rfl, rfl⟩
  intro x hx
  obtain ⟨⟨h0, -⟩, h1⟩ := (hfeas x).mp hx
  rw [show hillQP.objective = ⟨0, ⟨1, [(0, 1)]⟩, ⟨1, []⟩, .minimize⟩ by decide +kernel]
  simp only [Objective.val, LinExpr.val, QuadExpr.val, Dict.sum, List.map_cons, List.map_nil, List.sum_cons, List.sum_nil]
  nlinarith

/-- A local optimizer for `maximize x` that finds the optimum from the first guess and stops too early from all others. -/
def lazySolver : List ℚ → Except Err (List ℚ) := fun x0 => if x0 = [0] then .ok [10] else .ok [1]

/-- **C106 fails** for more trials and maximization: with one trial the optimum 10 is returned, with any larger number of trials
and positive draws the value 1. -/
theorem C106_trials_violated : maxLineQP.WF ∧ (∀ x, maxLineQP.Feas x → maxLineQP.objective.val x ≤ 10) ∧
    (∀ u : Nat → Nat → ℚ, ∃ r, multiStartSolve 1 100 u (fun _ => lazySolver) maxLineQP = .ok r ∧ r.fval = some 10) ∧
    ∀ (u : Nat → Nat → ℚ), (∀ t i, 0 < u t i) → ∀ k, ∃ r,
      multiStartSolve (k + 2) 100 u (fun _ => lazySolver) maxLineQP = .ok r ∧ r.fval = some 1 := by
  have hval : ∀ x : Nat → ℚ, maxLineQP.objective.val x = x 0 := by
    intro x
    rw [show maxLineQP.objective = ⟨0, ⟨1, [(0, 1)]⟩, ⟨1, []⟩, .maximize⟩ by decide +kernel]
    simp [Objective.val, LinExpr.val, QuadExpr.val, Dict.sum]
  have hsol : ∀ x0, ∃ x, lazySolver x0 = .ok x ∧ x.length = 1 ∧ 0 < maxLineQP.objective.val (pt x) := by
    intro x0
    unfold lazySolver
    split
    · exact ⟨_, rfl, rfl, by rw [hval]; decide +kernel⟩
    · exact ⟨_, rfl, rfl, by rw [hval]; decide +kernel⟩
  have hguess : ∀ (u : Nat → Nat → ℚ) t, initialGuess 100 u maxLineQP (t + 1) = .ok [10 * u (t + 1) 0] := by
    intro u t
    rw [initialGuess, if_pos (Nat.succ_pos t), show maxLineQP.vars = [⟨"x", 0, 10, .continuous⟩] by decide +kernel]
    norm_num [guessLoop, INFINITY]
  have hall : ∀ (u : Nat → Nat → ℚ) k, ∃ r, multiStartSolve (k + 1) 100 u (fun _ => lazySolver) maxLineQP = .ok r := by
    intro u k
    refine C31_accepts _ _ _ _ _ (by decide +kernel) k.succ_pos (fun t _ => ?_) ?_
    · cases t with
      | zero =>
        obtain ⟨x, hx, hl, -⟩ := hsol (List.replicate maxLineQP.numVars 0)
        exact ⟨x, ⟨_, rfl, hx⟩, hl⟩
      | succ t =>
        obtain ⟨x, hx, hl, -⟩ := hsol [10 * u (t + 1) 0]
        exact ⟨x, ⟨_, hguess u t, hx⟩, hl⟩
    · rintro x ⟨x0, -, hx⟩
      obtain ⟨x', hx', -, hpos⟩ := hsol x0
      cases hx.symm.trans hx'
      rw [show maxLineQP.objective.sense = .maximize by decide +kernel]
      simp only [ObjSense.value]
      norm_num [INFINITY]
      linarith
  have hlast : ∀ (u : Nat → Nat → ℚ) k, ∃ r x, multiStartSolve (k + 1) 100 u (fun _ => lazySolver) maxLineQP = .ok r ∧
      Answer 100 u (fun _ => lazySolver) maxLineQP k x ∧ r.fval = some (maxLineQP.objective.val (pt x)) := by
    intro u k
    obtain ⟨r, hr⟩ := hall u k
    obtain ⟨x, hx, -, hf⟩ := C31_maximize_last k 100 u (fun _ => lazySolver) maxLineQP (by decide +kernel) r
      (fun t x ⟨x0, _, hx⟩ => by
        obtain ⟨x', hx', -, hpos⟩ := hsol x0
        cases hx.symm.trans hx'
        exact hpos) hr
    exact ⟨r, x, hr, hx, hf⟩
  refine ⟨by decide +kernel, ?_, ?_, ?_⟩
  · rintro x ⟨hb, -⟩
    rw [hval]
    exact (hb 0 ⟨"x", 0, 10, .continuous⟩ (by decide +kernel)).2
  · intro u
    obtain ⟨r, x, hr, ⟨x0, h0, hx⟩, hf⟩ := hlast u 0
    refine ⟨r, hr, ?_⟩
    have h0' : initialGuess 100 u maxLineQP 0 = .ok [0] := by simp [initialGuess]; decide +kernel
    cases h0'.symm.trans h0
    cases (show lazySolver [0] = .ok [10] from rfl).symm.trans hx
    rw [hf, hval]
    rfl
  · intro u hu k
    obtain ⟨r, x, hr, ⟨x0, h0, hx⟩, hf⟩ := hlast u (k + 1)
    refine ⟨r, hr, ?_⟩
    cases (hguess u k).symm.trans h0
    have hne : ([10 * u (k + 1) 0] : List ℚ) ≠ [0] := by
      have := hu (k + 1) 0
      simp only [ne_eq, List.cons.injEq, and_true]
      linarith
    cases (show lazySolver [10 * u (k + 1) 0] = .ok [1] by rw [lazySolver, if_neg hne]).symm.trans hx
    rw [hf, hval]
    rfl

/-- The draws of trials number 1 to `k`. -/
def drawsOf {k : Nat} (d : Fin k → Nat → ℚ) : Nat → Nat → ℚ := fun t i =>
  if h : t - 1 < k then d ⟨t - 1, h⟩ i else 0

/-- **C106** (how likely the optimum is found), partial: if the local optimizer reaches the optimal value from the guesses drawn
in `A`, and never a smaller one, then with `k + 1` trials and independent draws the optimal value is returned with probability
at least `1 - (1 - μ A)^k`.  Missing: maximization, where more trials may make it less likely (`C106_trials_violated`), and
infeasible answers with smaller values (`C106_feasible_violated`). -/
theorem C106_probability_partial (clip : ℚ) (p : QP) (hshape : p.ShapeOK) (hs : p.objective.sense = .minimize)
    (solver : List ℚ → Except Err (List ℚ)) (best : ℚ)
    (hrange : ∀ v ∈ p.vars, (if v.lb ≤ -INFINITY then -clip else v.lb) ≤ (if INFINITY ≤ v.ub then clip else v.ub))
    (hsolver : ∀ x0, ∃ x, solver x0 = .ok x ∧ x.length = p.numVars ∧ best ≤ p.objective.val (pt x) ∧
      p.objective.val (pt x) < INFINITY)
    (μ : Measure (Nat → ℚ)) [IsProbabilityMeasure μ] {A : Set (Nat → ℚ)} (hA : MeasurableSet A)
    (hgood : ∀ d ∈ A, ∀ x0, guessLoop clip d 0 p.vars = .ok x0 → ∃ x, solver x0 = .ok x ∧ p.objective.val (pt x) = best)
    (k : Nat) :
    1 - (1 - μ A) ^ k ≤ Measure.pi (fun _ : Fin k => μ) {d | ∃ r,
      multiStartSolve (k + 1) clip (drawsOf d) (fun _ => solver) p = .ok r ∧ r.fval = some best} := by
  have hsub : (Set.univ.pi fun _ : Fin k => Aᶜ)ᶜ ⊆ {d | ∃ r,
      multiStartSolve (k + 1) clip (drawsOf d) (fun _ => solver) p = .ok r ∧ r.fval = some best} := by
    intro d hd
    simp only [Set.mem_compl_iff, Set.mem_univ_pi, not_forall, not_not] at hd
    obtain ⟨t, ht⟩ := hd
    have hguess : ∀ t, ∃ x0, initialGuess clip (drawsOf d) p t = .ok x0 := by
      intro t
      cases t with
      | zero => exact ⟨_, rfl⟩
      | succ t => exact (C56_exists_iff clip (drawsOf d) p (t + 1) t.succ_pos).1.mpr hrange
    obtain ⟨r, hr⟩ := C31_accepts (k + 1) clip (drawsOf d) (fun _ => solver) p hshape k.succ_pos
      (fun t _ => by
        obtain ⟨x0, h0⟩ := hguess t
        obtain ⟨x, hx, hl, -⟩ := hsolver x0
        exact ⟨x, ⟨x0, h0, hx⟩, hl⟩)
      (fun x ⟨x0, _, hx⟩ => by
        obtain ⟨x', hx', -, -, hlt⟩ := hsolver x0
        cases hx.symm.trans hx'
        rw [hs]
        simpa [ObjSense.value] using hlt)
    refine ⟨r, hr, ?_⟩
    obtain ⟨t0, x, -, ⟨x0, _, hx⟩, -, hf, -, hbest⟩ := C31_best_partial (k + 1) clip _ _ p hs r hr
    obtain ⟨y, ⟨y0, hy0, hy⟩, hle⟩ := hbest (t + 1) (by omega)
    have hdt : drawsOf d (t + 1) = d t := by
      funext i
      simp [drawsOf]
    rw [initialGuess, if_pos (Nat.succ_pos _), hdt] at hy0
    obtain ⟨y', hy', hval⟩ := hgood _ ht y0 hy0
    cases hy.symm.trans hy'
    obtain ⟨x', hx', -, hlow, -⟩ := hsolver x0
    cases hx.symm.trans hx'
    rw [hf, le_antisymm (hle.trans_eq hval) hlow]
  refine le_trans (le_of_eq ?_) (measure_mono hsub)
  rw [prob_compl_eq_one_sub (MeasurableSet.univ_pi fun _ => hA.compl), Measure.pi_pi]
  simp [prob_compl_eq_one_sub hA]

/-- `minimize -x²` with `-1 ≤ x ≤ 2`: the local minima are at the bounds. -/
def twoValleysQP : QP :=
  (runCalls (QP.empty "") [.addVar (-1) 2 .continuous (some "x"),
    .objective .minimize 0 (.dict []) (.dict [((.name "x", .name "x"), -1)])]).2

/-- A local optimizer for it: downhill to the next bound. -/
def twoValleysSolver : List ℚ → Except Err (List ℚ) := fun x0 => if 0 < pt x0 0 then .ok [2] else .ok [-1]

/-- With draws 1/4 and 3/4, each with probability 1/2, eleven trials find the minimum -4 with probability at least
`1 - (1/2)^10`. -/
example : 1 - (1 / 2 : ENNReal) ^ 10 ≤ Measure.pi (fun _ : Fin 10 =>
      (1 / 2 : ENNReal) • Measure.dirac (fun _ : Nat => (1 / 4 : ℚ)) + (1 / 2 : ENNReal) • Measure.dirac (fun _ : Nat => (3 / 4 : ℚ)))
    {d | ∃ r, multiStartSolve 11 100 (drawsOf d) (fun _ => twoValleysSolver) twoValleysQP = .ok r ∧ r.fval = some (-4)} := by
  have hA : MeasurableSet {d : Nat → ℚ | d 0 = 3 / 4} := measurableSet_eq_fun (measurable_pi_apply 0) measurable_const
  have hP : IsProbabilityMeasure ((1 / 2 : ENNReal) • Measure.dirac (fun _ : Nat => (1 / 4 : ℚ)) +
      (1 / 2 : ENNReal) • Measure.dirac (fun _ : Nat => (3 / 4 : ℚ))) := by
    constructor
    simp [ENNReal.inv_two_add_inv_two]
  have hμ : ((1 / 2 : ENNReal) • Measure.dirac (fun _ : Nat => (1 / 4 : ℚ)) +
      (1 / 2 : ENNReal) • Measure.dirac (fun _ : Nat => (3 / 4 : ℚ))) {d : Nat → ℚ | d 0 = 3 / 4} = 1 / 2 := by
    rw [Measure.add_apply, Measure.smul_apply, Measure.smul_apply, Measure.dirac_apply' _ hA, Measure.dirac_apply' _ hA]
    norm_num [Set.indicator]
  have h := C106_probability_partial 100 twoValleysQP (by decide +kernel) (by decide +kernel) twoValleysSolver (-4)
    (by decide +kernel) (fun x0 => by
      unfold twoValleysSolver
      split
      · exact ⟨_, rfl, by decide +kernel, by decide +kernel, by decide +kernel⟩
      · exact ⟨_, rfl, by decide +kernel, by decide +kernel, by decide +kernel⟩)
    ((1 / 2 : ENNReal) • Measure.dirac (fun _ : Nat => (1 / 4 : ℚ)) +
      (1 / 2 : ENNReal) • Measure.dirac (fun _ : Nat => (3 / 4 : ℚ))) hA
    (fun d hd x0 hx0 => by
      rw [show twoValleysQP.vars = [⟨"x", -1, 2, .continuous⟩] by decide +kernel] at hx0
      have hd' : d 0 = 3 / 4 := hd
      norm_num [guessLoop, INFINITY, hd'] at hx0
      subst hx0
      exact ⟨[2], by decide +kernel, by decide +kernel⟩) 10
  rw [hμ] at h
  refine le_trans (le_of_eq ?_) h
  norm_num

end Verif
