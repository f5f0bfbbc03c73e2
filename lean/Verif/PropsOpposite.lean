import Verif.OppositeRuns
import Verif.OppositeRecursive
import Verif.PropsMinEigen
import Verif.PropsAdmm
import Verif.PropsMultistart
import Verif.PropsSampleOrder

/-!
# C108: maximising `-f` instead of minimising `f`
-/

namespace Verif

/-- **C108** (the program): giving the negated coefficients, in any of the accepted forms, to the other one of `minimize` and
`maximize` has the same outcome, and makes the opposite program. -/
theorem C108_build (p : QP) (c : ℚ) (l : LinInput) (q : QuadInput) :
    ((p.maximize (-c) l.neg q.neg).1 = (p.minimize c l q).1) ∧
    ((p.minimize c l q).1 = .ok () → (p.maximize (-c) l.neg q.neg).2 = (p.minimize c l q).2.opposite) := by
  have h := setObjective_neg p .minimize c l q
  unfold QP.maximize QP.minimize
  rw [show ObjSense.maximize = ObjSense.minimize.flip from rfl, h]
  generalize p.setObjective .minimize c l q = a
  obtain ⟨a, d⟩ := a
  cases a <;> simp

/-- Values and feasible points of the opposite program. -/
theorem C108_meaning (p : QP) (x : Nat → ℚ) :
    p.opposite.objective.val x = -p.objective.val x ∧ p.opposite.objective.sense ≠ p.objective.sense ∧
    p.opposite.vars = p.vars ∧ p.opposite.lins = p.lins ∧ p.opposite.quads = p.quads ∧
    (p.opposite.Feas x ↔ p.Feas x) := by
  refine ⟨?_, ?_, rfl, rfl, rfl, Iff.rfl⟩
  · simp only [QP.opposite, Objective.opposite, Objective.val, LinExpr.val, QuadExpr.val, sum_negD]
    ring
  · simp only [QP.opposite, Objective.opposite]
    cases p.objective.sense <;> simp [ObjSense.flip]

example : (groverQP.opposite.objective.val (pt [1, 1]), groverQP.objective.val (pt [1, 1])) = (1, -1) ∧
    groverQP.opposite.objective.sense = .minimize := by decide +kernel

/-- **C108** (conversion): the QUBO of the opposite program is the opposite of the QUBO, with the same penalty, the same
interpretation of points, or the same error. -/
theorem C108_qubo (penalty : Option ℚ) (p : QP) :
    (∀ e, p.toQubo penalty = .error e → p.opposite.toQubo penalty = .error e) ∧
    ∀ st, p.toQubo penalty = .ok st → ∃ st', p.opposite.toQubo penalty = .ok st' ∧ st'.dst = st.dst.opposite ∧
      st'.pen = st.pen ∧ st'.interpret = st.interpret := by
  refine ⟨fun e h => ?_, fun st h => ⟨st.opposite, ?_, rfl, rfl, interpret_opposite st⟩⟩
  · rw [toQubo_opposite, h]; rfl
  · rw [toQubo_opposite, h]; rfl

/-- **C108** (operator): the Ising operator and the offset are identical. -/
theorem C108_ising (p : QP) : p.opposite.toIsing = p.toIsing := toIsing_opposite p

/-- **C108** (minimum eigen optimizer): for every eigensolver, whatever it returns, the results for a program and for its
opposite have the same point, the same statuses, the same samples and raw samples in the same order with the same
probabilities; all objective values are negated; or the same error is raised. -/
theorem C108_min_eigen (solver : QubitOp → Option Eigenstate) (penalty : Option ℚ) (p : QP) :
    minEigenSolve solver [quboConverter penalty] p.opposite =
      (minEigenSolve solver [quboConverter penalty] p).map Result.opposite := by
  unfold minEigenSolve
  rw [show quboMsg p.opposite = quboMsg p from rfl]
  by_cases hm : (quboMsg p).length > 0
  · rw [if_pos hm, if_pos hm]; rfl
  · rw [if_neg hm, if_neg hm]
    simp only [convertAll, quboConverter]
    rw [toQubo_opposite]
    cases p.toQubo penalty with
    | error e => rfl
    | ok st =>
      simp only [Except.map]
      rw [interpret_opposite, show st.opposite.dst = st.dst.opposite from rfl, toIsing_opposite]
      cases st.dst.toIsing with
      | error e => rfl
      | ok r => exact solveInternal_opposite solver r.1 st.dst p [st.interpret]

/-- A program with integer variables and an inequality, its automatic penalty and a solver that is not exact. -/
example : (minEigenSolve (fun _ => some (.counts [("1100100", 3), ("0000000", 1)])) [quboConverter none]
      fullQP.opposite).toOption.map (fun r => (r.x, r.fval)) =
    (minEigenSolve (fun _ => some (.counts [("1100100", 3), ("0000000", 1)])) [quboConverter none]
      fullQP).toOption.map (fun r => (r.x, r.fval.map (-·))) ∧
    (minEigenSolve (fun _ => some (.counts [("1100100", 3), ("0000000", 1)])) [quboConverter none]
      fullQP).toOption.map Result.x = some (some [1, 1, 0]) := by decide +kernel

/-- **C108** (recursive optimizer): with minimum eigen optimizers, whatever their eigensolvers return, the same variables are
replaced in the same order and the same point is found; the reduced programs are opposite and all values are negated; or the
same error is raised. -/
theorem C108_recursive (eig : Nat → QubitOp → Option Eigenstate) (last : QubitOp → Option Eigenstate)
    (pen₁ pen₂ pen₃ : Option ℚ) (m fuel : Nat) (p : QP) :
    let run := fun q => recursiveSolve (fun t => minEigenSolve (eig t) [quboConverter pen₁])
      (minEigenSolve last [quboConverter pen₂]) m [quboConverter pen₃] q fuel
    (run p = none → run p.opposite = none) ∧ (∀ e, run p = some (.error e) → run p.opposite = some (.error e)) ∧
    ∀ r, run p = some (.ok r) → ∃ r', run p.opposite = some (.ok r') ∧ r'.result = r.result.opposite ∧
      r'.point = r.point ∧ r'.replacements = r.replacements ∧ r'.reduced = r.reduced.opposite ∧
      r'.reducedResult = r.reducedResult.opposite := by
  intro run
  have h : run p.opposite = (run p).map fun r => r.map RecResult.opposite :=
    recursiveSolve_opposite (fun t q => C108_min_eigen (eig t) pen₁ q) (fun q => C108_min_eigen last pen₂ q) m pen₃ p fuel
  refine ⟨fun h1 => by rw [h, h1]; rfl, fun e h1 => by rw [h, h1]; rfl, fun r h1 => ?_⟩
  exact ⟨r.opposite, by rw [h, h1]; rfl, rfl, rfl, rfl, rfl, rfl⟩

/-- Two binary variables: the first eigensolver returns a string of two different characters, so `y` is replaced by `1 - x`. -/
example : (match recursiveSolve (fun _ => minEigenSolve (fun op => some (.counts [(String.ofList
        ((List.range op.numQubits).map fun i => if i = 0 then '0' else '1'), 1)])) [quboConverter none])
      (minEigenSolve (fun _ => some (.counts [("1", 1)])) [quboConverter none]) 1 [quboConverter none]
      ((((QP.empty "").binaryVar (some "x")).2.binaryVar (some "y")).2.maximize 0
        (.dict [(.name "x", 1), (.name "y", 2)]) (.dict [((.name "x", .name "y"), -4)])).2 10 with
    | some (.ok r) => decide (r.replacements = [("y", "x", -1)] ∧ r.point = [1, 0] ∧ r.result.fval = some 1)
    | _ => false) = true := by decide +kernel

/-- **C108** (ADMM): the two runs are the same, iterate by iterate, for all solvers; the point is the same and the value is
negated. -/
theorem C108_admm (qubo cont : Solver) (norm : List ℚ → ℚ) (clock : Nat → Bool) (prm : AdmmParams) (p : QP)
    (hp : p.objective.Clean) :
    (∀ e, admmSolve qubo cont norm clock prm p = .error e → admmSolve qubo cont norm clock prm p.opposite = .error e) ∧
    ∀ a, admmSolve qubo cont norm clock prm p = .ok a → ∃ a', admmSolve qubo cont norm clock prm p.opposite = .ok a' ∧
      a'.state = a.state ∧ a'.rep = a.rep ∧ a'.point = a.point ∧ a'.result = a.result.opposite := by
  have h := admmSolve_opposite qubo cont norm clock prm hp
  refine ⟨fun e he => ?_, fun a ha => ⟨{ a with result := a.result.opposite }, ?_, rfl, rfl, rfl, rfl⟩⟩
  · rw [h, he]; rfl
  · rw [h, ha]; rfl

/-- Objectives given by dictionaries meet the assumption. -/
theorem C108_clean {p q : QP} {s : ObjSense} {c : ℚ} {l : List (Key × ℚ)} {m : List ((Key × Key) × ℚ)}
    (h : p.setObjective s c (.dict l) (.dict m) = (.ok (), q)) : q.objective.Clean := setObjective_clean h

example : admmQP.objective.Clean ∧
    (admmSolve admmQubo admmCont norm1 (fun _ => true) (admmDefaults 2) admmQP.opposite).toOption.map
      (fun a => (a.result.x, a.result.fval, a.result.status)) = some (some [1, 1, 0], some (-5), .success) := by
  decide +kernel

/-- **C108**, partial (Grover).  Full statement: the result is the same but for the signs of all values.  Proved: for all
outcomes of all measurements the runs are the same; point, status, threshold and number of iterations are the same and the
values are negated.  Missing (false, `C108_grover_violated`): the order of the raw samples. -/
theorem C108_grover_partial (measure : Nat → Objective → Outcome) (rot : Nat → Nat) (sqrt : ℚ → ℚ) (penalty : Option ℚ)
    (nValue nIt : Nat) (p : QP) (hs : p.ShapeOK) (fuel : Nat) (r : GroverResult)
    (h : groverSolve measure rot sqrt [quboConverter penalty] nValue nIt p fuel = some (.ok r)) :
    ∃ r', groverSolve measure rot sqrt [quboConverter penalty] nValue nIt p.opposite fuel = some (.ok r') ∧
      r'.result.x = r.result.x ∧ r'.result.fval = r.result.fval.map (-·) ∧ r'.result.status = r.result.status ∧
      r'.optX = r.optX ∧ r'.fval = -r.fval ∧ r'.threshold = r.threshold ∧ r'.iterations = r.iterations := by
  unfold groverSolve at h ⊢
  rw [show quboMsg p.opposite = quboMsg p from rfl]
  by_cases hm : (quboMsg p).length > 0
  · rw [if_pos hm] at h; simp at h
  · rw [if_neg hm] at h ⊢
    have hc : ∀ (q : QP) (o : Objective), callersGrover [quboConverter penalty] o q = fun _ => q := fun _ _ => rfl
    simp only [hc] at h ⊢
    simp only [convertAll, quboConverter] at h ⊢
    rw [toQubo_opposite]
    cases hq : p.toQubo penalty with
    | error e => simp [hq] at h
    | ok st =>
      simp only [hq, Except.map] at h ⊢
      rw [interpret_opposite, show st.opposite.dst.objective = st.dst.objective.opposite from rfl,
        groverObjective_opposite (toQubo_clean hq)]
      generalize groverObjective st.dst.objective = obj at h ⊢
      split at h
      · simp at h
      · simp at h
      · rename_i t ht
        obtain ⟨t', ht', e1, e2, e3, e4, e5, e6, e7⟩ := groverLoop_opposite hs
          (s' := groverInit) ⟨rfl, rfl, rfl, rfl, rfl, rfl, rfl⟩ ht
        rw [show st.opposite.dst = st.dst.opposite from rfl, ht']
        simp only [Option.some.injEq] at h ⊢
        simp only [groverFinish, e1, e2] at h ⊢
        generalize keyToPoint obj.linear.n _ = x at h ⊢
        rw [show st.dst.opposite.objective = st.dst.objective.opposite from rfl, evaluate_opposite]
        cases hv : st.dst.objective.evaluate x with
        | error e => simp [hv] at h
        | ok v =>
          simp only [hv, Except.map] at h ⊢
          cases hi : interpretResult p [st.interpret] t.samples t.raw x with
          | error e => simp [hi] at h
          | ok res =>
            simp only [hi, Except.ok.injEq] at h
            obtain ⟨res', f1, f2, f3, f4, _⟩ := interpretResult_any (s' := t'.samples) (r' := t'.raw) hi
            subst h
            simp only [f1]
            exact ⟨_, rfl, f2, f3, f4, rfl, rfl, e3, e6⟩

/-- The run of the Grover optimizer on `groverQP` and its opposite: points and values. -/
example : groverQP.ShapeOK ∧
    (match groverSolve (simMeasure 2 4 groverKeys groverCircuit) (fun _ => 0) id [quboConverter none] 4 3 groverQP 100,
      groverSolve (simMeasure 2 4 groverKeys groverCircuit) (fun _ => 0) id [quboConverter none] 4 3 groverQP.opposite 100 with
    | some (.ok r), some (.ok r') => decide (r.result.x = r'.result.x ∧ r.result.fval = some 2 ∧ r'.result.fval = some (-2))
    | _, _ => false) = true := by decide +kernel

/-- **C108 is violated** by the raw samples of the Grover optimizer: those of the opposite program come in the opposite order. -/
theorem C108_grover_violated : ∃ (r r' : GroverResult),
    groverSolve (simMeasure 2 4 groverKeys groverCircuit) (fun _ => 0) id [quboConverter none] 4 3 groverQP 100 =
      some (.ok r) ∧
    groverSolve (simMeasure 2 4 groverKeys groverCircuit) (fun _ => 0) id [quboConverter none] 4 3 groverQP.opposite 100 =
      some (.ok r') ∧
    r.result.rawSamples.map Sample.fval = [-1, 0, 1, 2] ∧ r'.result.rawSamples.map Sample.fval = [-2, -1, 0, 1] := by
  have hd : (match groverSolve (simMeasure 2 4 groverKeys groverCircuit) (fun _ => 0) id [quboConverter none] 4 3 groverQP 100,
      groverSolve (simMeasure 2 4 groverKeys groverCircuit) (fun _ => 0) id [quboConverter none] 4 3 groverQP.opposite 100 with
    | some (.ok r), some (.ok r') => decide (r.result.rawSamples.map Sample.fval = [-1, 0, 1, 2] ∧
        r'.result.rawSamples.map Sample.fval = [-2, -1, 0, 1])
    | _, _ => false) = true := by decide +kernel
  split at hd
  · rename_i r r' h1 h2
    simp only [decide_eq_true_eq] at hd
    exact ⟨r, r', h1, h2, hd.1, hd.2⟩
  · simp at hd

/-- **C108**, partial (COBYLA and SLSQP).  Full statement: for any number of trials.  Proved: the functions, gradients,
constraints and bounds handed to the numerical solvers are the same, hence so is the result of a single trial, with the value
negated.  Missing (false, `C108_violated`): several trials. -/
theorem C108_local_partial (clip : ℚ) (u : Nat → Nat → ℚ) (p : QP)
    (cobyla : Nat → Fn → List ℚ → List Fn → Except Err (List ℚ))
    (slsqp : Nat → Fn → (List ℚ → Except Err (List ℚ)) → List ℚ → List Fn → List Fn → List (ℚ × ℚ) → Except Err (List ℚ)) :
    cobylaSolve cobyla 1 clip u p.opposite = (cobylaSolve cobyla 1 clip u p).map Result.opposite ∧
    slsqpSolve slsqp 1 clip u p.opposite = (slsqpSolve slsqp 1 clip u p).map Result.opposite := by
  constructor
  · unfold cobylaSolve
    rw [show onlyContinuous p.opposite = onlyContinuous p from rfl, solverObjective_opposite,
      show cobylaConstraints p.opposite = cobylaConstraints p from rfl]
    split
    · exact multiStart_opposite _ _ _ _
    · rfl
  · unfold slsqpSolve
    rw [show onlyContinuous p.opposite = onlyContinuous p from rfl, solverObjective_opposite, solverGradient_opposite,
      show p.opposite.csts = p.csts from rfl, show slsqpBounds p.opposite = slsqpBounds p from rfl]
    split
    · rw [multiStart_opposite]
      generalize multiStartSolve 1 clip u _ p = m
      cases m with
      | error e => rfl
      | ok r =>
        simp only [Except.map, show r.opposite.x = r.x from rfl]
        cases r.x with
        | none => rfl
        | some x =>
          simp only
          rw [feasibilityStatus_opposite]
          cases feasibilityStatus p x with
          | error e => rfl
          | ok st =>
            simp only [Result.mk?, show r.opposite.vars = r.vars from rfl]
            split <;> rfl
    · rfl

example : (multiStartSolve 1 100 (fun _ _ => 1 / 2) decreasingAnswers maxLineQP.opposite).toOption.map
    (fun r => (r.x, r.fval)) = some (some [5], some (-5)) := by decide +kernel

/-- **C108 is violated** by COBYLA and SLSQP with two trials: with the answers 5 and 3 the maximum of `x` is reported at 3 and
the minimum of `-x` at 5. -/
theorem C108_violated : ∃ (p : QP) (cobyla : Nat → Fn → List ℚ → List Fn → Except Err (List ℚ)) (r r' : Result),
    p.WF ∧ cobylaSolve cobyla 2 100 (fun _ _ => 1 / 2) p = .ok r ∧
    cobylaSolve cobyla 2 100 (fun _ _ => 1 / 2) p.opposite = .ok r' ∧ r.x = some [3] ∧ r'.x = some [5] :=
  ⟨maxLineQP, fun t _ _ _ => decreasingAnswers t [], maxLineResult,
    ⟨some [5], some (-5), maxLineQP.vars, some [("x", 5)], .success, [], []⟩, by decide +kernel, by decide +kernel,
    by decide +kernel, by decide +kernel, by decide +kernel⟩

end Verif
