import Verif.Scale
import Verif.PropsRaise

/-!
# C112: the objective multiplied by a positive number
-/

namespace Verif

/-- **C112** (the program): `minimize` and `maximize` with all coefficients multiplied by `w`, in any of the accepted forms, have
the same outcome and make the scaled program. -/
theorem C112_build {w : ℚ} (hw : 0 < w) (p : QP) (c : ℚ) (l : LinInput) (q : QuadInput) :
    ((p.minimize (w * c) (l.scale w) (q.scale w)).1 = (p.minimize c l q).1 ∧
      (p.maximize (w * c) (l.scale w) (q.scale w)).1 = (p.maximize c l q).1) ∧
    ((p.minimize c l q).1 = .ok () →
      (p.minimize (w * c) (l.scale w) (q.scale w)).2 = (p.minimize c l q).2.scale w) ∧
    ((p.maximize c l q).1 = .ok () →
      (p.maximize (w * c) (l.scale w) (q.scale w)).2 = (p.maximize c l q).2.scale w) := by
  have h1 := setObjective_scale hw.ne' p .minimize c l q
  have h2 := setObjective_scale hw.ne' p .maximize c l q
  unfold QP.maximize QP.minimize
  rw [h1, h2]
  generalize p.setObjective .minimize c l q = a
  generalize p.setObjective .maximize c l q = b
  obtain ⟨a, d⟩ := a
  obtain ⟨b, e⟩ := b
  cases a <;> cases b <;> simp

/-- Values, feasible points and optimal points of the scaled program. -/
theorem C112_meaning {w : ℚ} (hw : 0 < w) (p : QP) (x : Nat → ℚ) :
    (p.scale w).objective.val x = w * p.objective.val x ∧ (p.scale w).objective.sense = p.objective.sense ∧
    (p.scale w).vars = p.vars ∧ (p.scale w).lins = p.lins ∧ (p.scale w).quads = p.quads ∧
    ((p.scale w).Feas x ↔ p.Feas x) ∧
    ∀ y, ((p.scale w).objective.val x ≤ (p.scale w).objective.val y ↔ p.objective.val x ≤ p.objective.val y) := by
  have hv : ∀ x, (p.scale w).objective.val x = w * p.objective.val x := by
    intro x
    simp only [QP.scale, Objective.scale, Objective.val, LinExpr.val, QuadExpr.val, sum_scaleD]
    ring
  refine ⟨hv x, rfl, rfl, rfl, rfl, Iff.rfl, fun y => ?_⟩
  rw [hv, hv]
  exact mul_le_mul_iff_right₀ hw

example : ((groverQP.scale 3).objective.val (pt [1, 1]), groverQP.objective.val (pt [1, 1])) = (-3, -1) := by decide +kernel

/-- **C112**, partial (conversion).  Full statement: the QUBO of the scaled program is the scaled QUBO, for given and for automatic
penalties.  Proved: for a given penalty that is multiplied by the same number; the interpretation of points is the same, or the
same error is raised.  Missing (false, `C112_violated`): the automatic penalty. -/
theorem C112_qubo_partial {w : ℚ} (hw : 0 < w) (v : ℚ) (p : QP) :
    (∀ e, p.toQubo (some v) = .error e → (p.scale w).toQubo (some (w * v)) = .error e) ∧
    ∀ st, p.toQubo (some v) = .ok st → ∃ st', (p.scale w).toQubo (some (w * v)) = .ok st' ∧ st'.dst = st.dst.scale w ∧
      st'.pen = w * st.pen ∧ st'.interpret = st.interpret := by
  refine ⟨fun e h => ?_, fun st h => ⟨st.scale w, ?_, rfl, rfl, interpret_scale w st⟩⟩
  · rw [toQubo_scale hw.ne', h]; rfl
  · rw [toQubo_scale hw.ne', h]; rfl

example : (match fullQP.toQubo (some 5), (fullQP.scale (1 / 2)).toQubo (some (5 / 2)) with
    | .ok st, .ok st' => decide (st'.dst = st.dst.scale (1 / 2) ∧ st.dst.objective.linear.coeffs ≠ [])
    | _, _ => false) = true := by decide +kernel

/-- **C112 is violated** by the automatic penalty `1 + (upper bound - lower bound)`: twice the objective does not give twice the
QUBO. -/
theorem C112_violated : ∃ (p : QP) (st st' : QuboState), p.WF ∧ p.toQubo none = .ok st ∧
    (p.scale 2).toQubo none = .ok st' ∧ st'.dst ≠ st.dst.scale 2 ∧ st'.pen ≠ 2 * st.pen := by
  have hd : (match fullQP.toQubo none, (fullQP.scale 2).toQubo none with
    | .ok st, .ok st' => decide (st'.dst ≠ st.dst.scale 2 ∧ st'.pen ≠ 2 * st.pen)
    | _, _ => false) = true := by decide +kernel
  split at hd
  · rename_i st st' h1 h2
    exact ⟨fullQP, st, st', by decide +kernel, h1, h2, of_decide_eq_true hd⟩
  · simp at hd

/-- **C112** (automatic penalty): what is true of it.  When the linear constraints have integral coefficients and right-hand
sides, its distance from 1 is multiplied; otherwise it does not depend on the objective. -/
theorem C112_auto_penalty {w : ℚ} (hw : 0 < w) (p : QP) :
    ((∀ c ∈ p.lins, c.rhs.den = 1 ∧ ∀ e ∈ c.linear.coeffs, e.2.den = 1) →
      autoPenalty (p.scale w) - 1 = w * (autoPenalty p - 1)) ∧
    (¬ (∀ c ∈ p.lins, c.rhs.den = 1 ∧ ∀ e ∈ c.linear.coeffs, e.2.den = 1) → autoPenalty (p.scale w) = autoPenalty p) := by
  have hf : anyFloat (p.lins.flatMap fun c => c.rhs :: c.linear.coeffs.values) = false ↔
      ∀ c ∈ p.lins, c.rhs.den = 1 ∧ ∀ e ∈ c.linear.coeffs, e.2.den = 1 := by
    simp only [anyFloat, Dict.values, List.any_eq_false, List.mem_flatMap, List.mem_cons, List.mem_map, decide_eq_true_eq,
      not_not]
    constructor
    · intro h c hc
      exact ⟨h _ ⟨c, hc, Or.inl rfl⟩, fun e he => h _ ⟨c, hc, Or.inr ⟨e, he, rfl⟩⟩⟩
    · rintro h v ⟨c, hc, rfl | ⟨e, he, rfl⟩⟩
      · exact (h c hc).1
      · exact (h c hc).2 e he
  have hs : ∀ {κ : Type} (d : Dict κ), ((scaleD w d).values.map abs).sum = w * ((Dict.values d).map abs).sum := by
    intro κ d
    induction d with
    | nil => exact (mul_zero w).symm
    | cons q d ih =>
      show |w * q.2| + ((scaleD w d).values.map abs).sum = w * (|q.2| + ((Dict.values d).map abs).sum)
      rw [ih, abs_mul, abs_of_pos hw, mul_add]
  refine ⟨fun h => ?_, fun h => ?_⟩
  · unfold autoPenalty
    rw [show (p.scale w).lins = p.lins from rfl, hf.mpr h]
    simp only [objective_scale, QuadExpr.toDict, Bool.false_eq_true, if_false, List.sum_cons, List.sum_append, hs]
    ring
  · unfold autoPenalty
    rw [show (p.scale w).lins = p.lins from rfl, Bool.eq_true_of_not_eq_false (fun h' => h (hf.mp h'))]
    simp only [if_true]

example : (autoPenalty fullQP, autoPenalty (fullQP.scale 2)) = (7, 13) := by decide +kernel

/-- **C112** (operator): the Ising operator and the offset are multiplied.  An objective without linear and quadratic terms has
the identity as operator in both cases. -/
theorem C112_ising {w : ℚ} (hw : 0 < w) (p : QP) :
    (∀ e, p.toIsing = .error e → (p.scale w).toIsing = .error e) ∧
    ∀ op off, p.toIsing = .ok (op, off) → (p.scale w).toIsing = .ok (op.scale w, w * off) ∨
      op = ⟨p.numVars, [((List.replicate p.numVars false, List.replicate p.numVars false), 1)]⟩ ∧
        (p.scale w).toIsing = .ok (op, w * off) :=
  toIsing_scale hw.ne' p

example : groverQP.toIsing.toOption.map (fun r => (r.1.terms.map Prod.snd, r.2)) = some ([-1 / 2, 1], -1 / 2) ∧
    (groverQP.scale 3).toIsing.toOption.map (fun r => (r.1.terms.map Prod.snd, r.2)) = some ([-3 / 2, 3], -3 / 2) := by
  decide +kernel

/-- An eigensolver that does not look at positive factors. -/
def ScaleFree (solver : QubitOp → Option Eigenstate) : Prop :=
  ∀ (w : ℚ) (op : QubitOp), 0 < w → solver ⟨op.numQubits, op.terms.map fun t => (t.1, w * t.2)⟩ = solver op

theorem minEigenSolve_scale {w : ℚ} (hw : 0 < w) {solver : QubitOp → Option Eigenstate} (hs : ScaleFree solver) (v : ℚ)
    (p : QP) : minEigenSolve solver [quboConverter (some (w * v))] (p.scale w) =
      (minEigenSolve solver [quboConverter (some v)] p).map (Result.scale w) := by
  unfold minEigenSolve
  rw [show quboMsg (p.scale w) = quboMsg p from rfl]
  by_cases hm : (quboMsg p).length > 0
  · rw [if_pos hm, if_pos hm]; rfl
  · rw [if_neg hm, if_neg hm]
    simp only [convertAll, quboConverter]
    rw [toQubo_scale hw.ne']
    cases p.toQubo (some v) with
    | error e => rfl
    | ok st =>
      simp only [Except.map]
      rw [interpret_scale, show (st.scale w).dst = st.dst.scale w from rfl]
      cases ho : st.dst.toIsing with
      | error e => rw [(toIsing_scale hw.ne' st.dst).1 e ho]
      | ok r =>
        obtain ⟨op, off⟩ := r
        rcases (toIsing_scale hw.ne' st.dst).2 op off ho with h | ⟨_, h⟩
        · rw [h]
          refine Eq.trans ?_ (solveInternal_scale hw solver op st.dst p [st.interpret])
          show solveInternal solver (op.scale w) _ _ _ = _
          unfold solveInternal
          rw [show solver (op.scale w) = solver op from hs w op hw, show (op.scale w).numQubits = op.numQubits from rfl]
        · rw [h]
          exact solveInternal_scale hw solver op st.dst p [st.interpret]

/-- What it means that the values of two results differ by a factor: same point, status and variables, and samples with the same
points, probabilities and statuses in the same order. -/
structure DifferByFactor (w : ℚ) (r r' : Result) : Prop where
  x : r'.x = r.x
  fval : r'.fval = r.fval.map (w * ·)
  status : r'.status = r.status
  vars : r'.vars = r.vars ∧ r'.varsDict = r.varsDict
  samples : r'.samples = r.samples.map fun s => ⟨s.x, w * s.fval, s.probability, s.status⟩
  raw : r'.rawSamples = r.rawSamples.map fun s => ⟨s.x, w * s.fval, s.probability, s.status⟩

theorem differByFactor_scale (w : ℚ) (r : Result) : DifferByFactor w r (r.scale w) := ⟨rfl, rfl, rfl, ⟨rfl, rfl⟩, rfl, rfl⟩

/-- **C112** (minimum eigen optimizer): with the penalty multiplied too and an eigensolver that does not look at positive factors,
all values of the result are multiplied and nothing else changes; or the same error is raised. -/
theorem C112_min_eigen {w : ℚ} (hw : 0 < w) {solver : QubitOp → Option Eigenstate} (hs : ScaleFree solver) (v : ℚ) (p : QP) :
    (∀ e, minEigenSolve solver [quboConverter (some v)] p = .error e →
      minEigenSolve solver [quboConverter (some (w * v))] (p.scale w) = .error e) ∧
    ∀ r, minEigenSolve solver [quboConverter (some v)] p = .ok r →
      ∃ r', minEigenSolve solver [quboConverter (some (w * v))] (p.scale w) = .ok r' ∧ DifferByFactor w r r' := by
  refine ⟨fun e h => ?_, fun r h => ⟨r.scale w, ?_, differByFactor_scale w r⟩⟩
  · rw [minEigenSolve_scale hw hs, h]; rfl
  · rw [minEigenSolve_scale hw hs, h]; rfl

/-- The ground state of an operator on one qubit with one term `c Z`. -/
def signSolver (op : QubitOp) : Option Eigenstate :=
  some (.counts [(if op.terms.any (fun t => decide (0 < t.2)) then "1" else "0", 1)])

theorem signSolver_scaleFree : ScaleFree signSolver := by
  intro w op hw
  simp only [signSolver, List.any_map, Function.comp_def, mul_pos_iff_of_pos_left hw]

/-- A program with integer variables and an inequality. -/
example : ScaleFree (fun _ => some (.counts [("1100100", 3), ("0000000", 1)])) ∧
    (minEigenSolve (fun _ => some (.counts [("1100100", 3), ("0000000", 1)])) [quboConverter (some 10)]
      (fullQP.scale 2)).toOption.map (fun r => (r.x, r.fval)) =
    (minEigenSolve (fun _ => some (.counts [("1100100", 3), ("0000000", 1)])) [quboConverter (some 5)]
      fullQP).toOption.map (fun r => (r.x, r.fval.map (2 * ·))) ∧
    (minEigenSolve (fun _ => some (.counts [("1100100", 3), ("0000000", 1)])) [quboConverter (some 5)]
      fullQP).toOption.map Result.x = some (some [1, 1, 0]) := ⟨fun _ _ _ => rfl, by decide +kernel, by decide +kernel⟩

theorem trialLoop_scale {w : ℚ} (hw : 0 < w) {clip : ℚ} {u : Nat → Nat → ℚ} {minimize : Nat → List ℚ → Except Err (List ℚ)}
    {p : QP} (hb : ∀ t x0 x v, minimize t x0 = .ok x → p.objective.evaluate x = .ok v →
      p.objective.sense.value * v < INFINITY ∧ p.objective.sense.value * (w * v) < INFINITY) (k t : Nat) :
    (trialLoop clip u minimize (p.scale w) k t INFINITY none =
      (trialLoop clip u minimize p k t INFINITY none).map
        fun r => match r.2 with | none => r | some x => (w * r.1, some x)) ∧
    ∀ f x, trialLoop clip u minimize (p.scale w) k t (w * f) (some x) =
      (trialLoop clip u minimize p k t f (some x)).map fun r => (w * r.1, r.2) := by
  induction k generalizing t with
  | zero => exact ⟨rfl, fun _ _ => rfl⟩
  | succ k ih =>
    simp only [trialLoop, show initialGuess clip u (p.scale w) t = initialGuess clip u p t from rfl,
      show (p.scale w).objective = p.objective.scale w from rfl, evaluate_scale]
    cases initialGuess clip u p t with
    | error e => exact ⟨rfl, fun _ _ => rfl⟩
    | ok x0 =>
      simp only
      cases hx : minimize t x0 with
      | error e => exact ⟨rfl, fun _ _ => rfl⟩
      | ok x =>
        simp only
        cases hv : p.objective.evaluate x with
        | error e => exact ⟨rfl, fun _ _ => rfl⟩
        | ok v =>
          obtain ⟨b1, b2⟩ := hb t x0 x v hx hv
          simp only [Except.map, show (p.objective.scale w).sense = p.objective.sense from rfl, mul_assoc]
          refine ⟨?_, fun f y => ?_⟩
          · rw [if_pos (by rw [← mul_assoc, mul_comm]; exact b2), if_pos (by rw [mul_comm]; exact b1),
              (ih (t + 1)).2 _ x]
            cases hl : trialLoop clip u minimize p k (t + 1) (v * (p.objective.sense.value * p.objective.sense.value))
                (some x) with
            | error e => rfl
            | ok r =>
              obtain ⟨y, hy⟩ := trialLoop_some hl
              simp only [Except.map, hy]
          · simp only [mul_lt_mul_iff_right₀ hw]
            split
            · exact (ih (t + 1)).2 _ x
            · exact (ih (t + 1)).2 f y

/-- **C112**, partial (multi-start).  Full statement: the trial that is chosen does not depend on the factor.  Proved: both senses,
any number of trials, when the numerical solver gives the same answers and the signed values before and after stay below `1e20`.
Missing (false, `C112_violated_large`): larger values. -/
theorem C112_local_partial {w : ℚ} (hw : 0 < w) (clip : ℚ) (u : Nat → Nat → ℚ)
    (minimize : Nat → List ℚ → Except Err (List ℚ)) (p : QP)
    (hb : ∀ t x0 x v, minimize t x0 = .ok x → p.objective.evaluate x = .ok v →
      p.objective.sense.value * v < INFINITY ∧ p.objective.sense.value * (w * v) < INFINITY) (trials : Nat) :
    (∀ e, multiStartSolve trials clip u minimize p = .error e →
      multiStartSolve trials clip u minimize (p.scale w) = .error e) ∧
    ∀ r, multiStartSolve trials clip u minimize p = .ok r →
      ∃ r', multiStartSolve trials clip u minimize (p.scale w) = .ok r' ∧ DifferByFactor w r r' := by
  have h : multiStartSolve trials clip u minimize (p.scale w) =
      (multiStartSolve trials clip u minimize p).map (Result.scale w) := by
    unfold multiStartSolve
    rw [(trialLoop_scale hw hb trials 0).1]
    cases trialLoop clip u minimize p trials 0 INFINITY none with
    | error e => rfl
    | ok r =>
      obtain ⟨f, y⟩ := r
      cases y with
      | none => rfl
      | some x =>
        simp only [Except.map]
        rw [feasibilityStatus_scale]
        cases feasibilityStatus p x with
        | error e => rfl
        | ok st =>
          simp only [Result.mk?, show (p.scale w).vars = p.vars from rfl]
          split <;> rfl
  refine ⟨fun e he => ?_, fun r hr => ⟨r.scale w, ?_, differByFactor_scale w r⟩⟩
  · rw [h, he]; rfl
  · rw [h, hr]; rfl

/-- The answers 5, 3, 1, …: the last of three trials is chosen. -/
example : (∀ t x0 x v, decreasingAnswers t x0 = .ok x → minLineQP.objective.evaluate x = .ok v →
      minLineQP.objective.sense.value * v < INFINITY ∧ minLineQP.objective.sense.value * (7 * v) < INFINITY) ∧
    (multiStartSolve 3 100 (fun _ _ => 1 / 2) decreasingAnswers (minLineQP.scale 7)).toOption.map
      (fun r => (r.x, r.fval)) = some (some [1], some 7) := by
  refine ⟨?_, by decide +kernel⟩
  intro t x0 x v hx hv
  simp only [decreasingAnswers, Except.ok.injEq] at hx
  subst hx
  have ho : minLineQP.objective = ⟨0, ⟨1, [(0, 1)]⟩, ⟨1, []⟩, .minimize⟩ := by decide +kernel
  rw [ho] at hv ⊢
  have hval := (Objective.evaluate_inv hv).2.2
  have ht : (0 : ℚ) ≤ t := Nat.cast_nonneg t
  have hv' : v = 5 - 2 * t := by
    rw [hval]
    simp [Objective.val, LinExpr.val, QuadExpr.val, Dict.sum, pt]
  simp only [ObjSense.value]
  constructor
  · unfold INFINITY; linarith
  · unfold INFINITY; linarith

/-- **C112** (COBYLA and SLSQP): the function handed to the numerical solver is multiplied, the constraints and the bounds are the
same. -/
theorem C112_solver_input (w : ℚ) (p : QP) :
    (∀ x, solverObjective (p.scale w) x = (solverObjective p x).map (w * ·)) ∧
    cobylaConstraints (p.scale w) = cobylaConstraints p ∧
    slsqpEq (p.scale w).csts = slsqpEq p.csts ∧ slsqpIneq (p.scale w).csts = slsqpIneq p.csts ∧
    slsqpBounds (p.scale w) = slsqpBounds p ∧ onlyContinuous (p.scale w) = onlyContinuous p := by
  refine ⟨fun x => ?_, rfl, rfl, rfl, rfl, rfl⟩
  unfold solverObjective
  rw [show (p.scale w).objective = p.objective.scale w from rfl, evaluate_scale]
  cases p.objective.evaluate x with
  | error e => rfl
  | ok v =>
    simp only [Except.map]
    rw [show (p.objective.scale w).sense = p.objective.sense from rfl, mul_left_comm]

/-- **C112 is violated** by COBYLA and SLSQP for large factors: no trial is accepted and a TypeError is raised. -/
theorem C112_violated_large : ∃ (p : QP) (cobyla : Nat → Fn → List ℚ → List Fn → Except Err (List ℚ)) (r : Result),
    p.WF ∧ cobylaSolve cobyla 2 100 (fun _ _ => 1 / 2) p = .ok r ∧ r.x = some [3] ∧
    cobylaSolve cobyla 2 100 (fun _ _ => 1 / 2) (p.scale (10 ^ 20)) = .error .typeError :=
  ⟨minLineQP, fun t _ _ _ => decreasingAnswers t [],
    ⟨some [3], some 3, minLineQP.vars, some [("x", 3)], .success, [], []⟩, by decide +kernel,
    by decide +kernel, by decide +kernel, by decide +kernel⟩

/-- **C112 is violated** by the recursive optimizer: with solvers that return ground states and do not look at positive factors,
the maximum of `x + 2 y - 4 x y` is found at (0, 1), the maximum of the same function times `1e-11` is reported at (1, 0), because
linear coefficients below `1e-10` are dropped. -/
theorem C112_recursive_violated : ∃ (p : QP) (eig last : QubitOp → Option Eigenstate) (r r' : RecResult),
    p.WF ∧ ScaleFree eig ∧ ScaleFree last ∧
    recursiveSolve (fun _ => minEigenSolve eig [quboConverter none]) (minEigenSolve last [quboConverter none]) 1
      [quboConverter none] p 10 = some (.ok r) ∧
    recursiveSolve (fun _ => minEigenSolve eig [quboConverter none]) (minEigenSolve last [quboConverter none]) 1
      [quboConverter none] (p.scale (1 / 10 ^ 11)) 10 = some (.ok r') ∧
    r.result.x = some [0, 1] ∧ r.result.fval = some 2 ∧ r'.result.x = some [1, 0] ∧ r'.result.fval = some (1 / 10 ^ 11) := by
  have hd : (match recursiveSolve (fun _ => minEigenSolve (fun _ => some (.counts [("10", 1)])) [quboConverter none])
        (minEigenSolve signSolver [quboConverter none]) 1 [quboConverter none] groverQP 10,
      recursiveSolve (fun _ => minEigenSolve (fun _ => some (.counts [("10", 1)])) [quboConverter none])
        (minEigenSolve signSolver [quboConverter none]) 1 [quboConverter none] (groverQP.scale (1 / 10 ^ 11)) 10 with
    | some (.ok r), some (.ok r') => decide (r.result.x = some [0, 1] ∧ r.result.fval = some 2 ∧ r'.result.x = some [1, 0] ∧
        r'.result.fval = some (1 / 10 ^ 11))
    | _, _ => false) = true := by decide +kernel
  split at hd
  · rename_i r r' h1 h2
    exact ⟨groverQP, _, signSolver, r, r', by decide +kernel, fun _ _ _ => rfl, signSolver_scaleFree, h1, h2,
      of_decide_eq_true hd⟩
  · simp at hd

end Verif
