import Verif.RaiseRuns
import Verif.QuboSample
import Verif.PropsMinEigen
import Verif.PropsAdmm
import Verif.PropsMultistart
import Verif.PropsSampleOrder

/-!
# C109: a constant added to the objective
-/

namespace Verif

/-- **C109** (the program): `minimize` and `maximize` with a constant larger by `w` have the same outcome and make the raised
program. -/
theorem C109_build (w : ℚ) (p : QP) (c : ℚ) (l : LinInput) (q : QuadInput) :
    ((p.minimize (c + w) l q).1 = (p.minimize c l q).1 ∧ (p.maximize (c + w) l q).1 = (p.maximize c l q).1) ∧
    ((p.minimize c l q).1 = .ok () → (p.minimize (c + w) l q).2 = (p.minimize c l q).2.raise w) ∧
    ((p.maximize c l q).1 = .ok () → (p.maximize (c + w) l q).2 = (p.maximize c l q).2.raise w) := by
  have h1 := setObjective_raise w p .minimize c l q
  have h2 := setObjective_raise w p .maximize c l q
  unfold QP.maximize QP.minimize
  rw [h1, h2]
  generalize p.setObjective .minimize c l q = a
  generalize p.setObjective .maximize c l q = b
  obtain ⟨a, d⟩ := a
  obtain ⟨b, e⟩ := b
  cases a <;> cases b <;> simp

/-- Values and feasible points of the raised program. -/
theorem C109_meaning (w : ℚ) (p : QP) (x : Nat → ℚ) :
    (p.raise w).objective.val x = p.objective.val x + w ∧ (p.raise w).objective.sense = p.objective.sense ∧
    (p.raise w).vars = p.vars ∧ (p.raise w).lins = p.lins ∧ (p.raise w).quads = p.quads ∧
    ((p.raise w).Feas x ↔ p.Feas x) := by
  refine ⟨?_, rfl, rfl, rfl, rfl, Iff.rfl⟩
  simp only [QP.raise, Objective.raise, Objective.val]
  ring

example : ((groverQP.raise 7).objective.val (pt [1, 1]), groverQP.objective.val (pt [1, 1])) = (6, -1) := by decide +kernel

/-- **C109** (conversion): the QUBO of the raised program is the raised QUBO, with the same penalty and the same interpretation
of points, or the same error is raised. -/
theorem C109_qubo (w : ℚ) (penalty : Option ℚ) (p : QP) :
    (∀ e, p.toQubo penalty = .error e → (p.raise w).toQubo penalty = .error e) ∧
    ∀ st, p.toQubo penalty = .ok st → ∃ st', (p.raise w).toQubo penalty = .ok st' ∧ st'.dst = st.dst.raise w ∧
      st'.pen = st.pen ∧ st'.interpret = st.interpret := by
  refine ⟨fun e h => ?_, fun st h => ⟨st.raise w, ?_, rfl, rfl, interpret_raise w st⟩⟩
  · rw [toQubo_raise, h]; rfl
  · rw [toQubo_raise, h]; rfl

/-- **C109** (operator): the Ising operator is identical, the constant is added to the offset with the sign of the sense. -/
theorem C109_ising (w : ℚ) (p : QP) :
    (∀ e, p.toIsing = .error e → (p.raise w).toIsing = .error e) ∧
    ∀ op off, p.toIsing = .ok (op, off) → (p.raise w).toIsing = .ok (op, off + p.objective.sense.value * w) := by
  refine ⟨fun e h => ?_, fun op off h => ?_⟩
  · rw [toIsing_raise, h]; rfl
  · rw [toIsing_raise, h]; rfl

example : groverQP.toIsing.toOption.map Prod.snd = some (-1 / 2) ∧
    (groverQP.raise 7).toIsing.toOption.map Prod.snd = some (-15 / 2) := by decide +kernel

theorem minEigenSolve_raise (w : ℚ) (solver : QubitOp → Option Eigenstate) (penalty : Option ℚ) (p : QP) :
    minEigenSolve solver [quboConverter penalty] (p.raise w) =
      (minEigenSolve solver [quboConverter penalty] p).map (Result.raise w) := by
  unfold minEigenSolve
  rw [show quboMsg (p.raise w) = quboMsg p from rfl]
  by_cases hm : (quboMsg p).length > 0
  · rw [if_pos hm, if_pos hm]; rfl
  · rw [if_neg hm, if_neg hm]
    simp only [convertAll, quboConverter]
    rw [toQubo_raise]
    cases p.toQubo penalty with
    | error e => rfl
    | ok st =>
      simp only [Except.map]
      rw [interpret_raise, show (st.raise w).dst = st.dst.raise w from rfl, toIsing_raise]
      cases st.dst.toIsing with
      | error e => rfl
      | ok r => exact solveInternal_raise w solver r.1 st.dst p [st.interpret]

/-- What it means that two results differ by a constant: same point, status and variables, and samples with the same points,
probabilities and statuses in the same order, all values differ by `w`. -/
structure DifferBy (w : ℚ) (r r' : Result) : Prop where
  x : r'.x = r.x
  fval : r'.fval = r.fval.map (· + w)
  status : r'.status = r.status
  vars : r'.vars = r.vars ∧ r'.varsDict = r.varsDict
  samples : r'.samples = r.samples.map fun s => ⟨s.x, s.fval + w, s.probability, s.status⟩
  raw : r'.rawSamples = r.rawSamples.map fun s => ⟨s.x, s.fval + w, s.probability, s.status⟩

theorem differBy_raise (w : ℚ) (r : Result) : DifferBy w r (r.raise w) := ⟨rfl, rfl, rfl, ⟨rfl, rfl⟩, rfl, rfl⟩

/-- **C109** (minimum eigen optimizer): for every eigensolver, whatever it returns, all values of the result are larger by the
constant and nothing else changes; or the same error is raised. -/
theorem C109_min_eigen (w : ℚ) (solver : QubitOp → Option Eigenstate) (penalty : Option ℚ) (p : QP) :
    (∀ e, minEigenSolve solver [quboConverter penalty] p = .error e →
      minEigenSolve solver [quboConverter penalty] (p.raise w) = .error e) ∧
    ∀ r, minEigenSolve solver [quboConverter penalty] p = .ok r →
      ∃ r', minEigenSolve solver [quboConverter penalty] (p.raise w) = .ok r' ∧ DifferBy w r r' := by
  refine ⟨fun e h => ?_, fun r h => ⟨r.raise w, ?_, differBy_raise w r⟩⟩
  · rw [minEigenSolve_raise, h]; rfl
  · rw [minEigenSolve_raise, h]; rfl

/-- A program with integer variables and an inequality, its automatic penalty and a solver that is not exact. -/
example : (minEigenSolve (fun _ => some (.counts [("1100100", 3), ("0000000", 1)])) [quboConverter none]
      (fullQP.raise (-3))).toOption.map (fun r => (r.x, r.fval)) =
    (minEigenSolve (fun _ => some (.counts [("1100100", 3), ("0000000", 1)])) [quboConverter none]
      fullQP).toOption.map (fun r => (r.x, r.fval.map (· - 3))) ∧
    (minEigenSolve (fun _ => some (.counts [("1100100", 3), ("0000000", 1)])) [quboConverter none]
      fullQP).toOption.map Result.x = some (some [1, 1, 0]) := by decide +kernel

/-- **C109** (recursive optimizer): with minimum eigen optimizers, whatever their eigensolvers return, the same variables are
replaced in the same order and the same point is found; all values are larger by the constant; or the same error is raised. -/
theorem C109_recursive (w : ℚ) (eig : Nat → QubitOp → Option Eigenstate) (last : QubitOp → Option Eigenstate)
    (pen₁ pen₂ pen₃ : Option ℚ) (m fuel : Nat) (p : QP) :
    let run := fun q => recursiveSolve (fun t => minEigenSolve (eig t) [quboConverter pen₁])
      (minEigenSolve last [quboConverter pen₂]) m [quboConverter pen₃] q fuel
    (run p = none → run (p.raise w) = none) ∧ (∀ e, run p = some (.error e) → run (p.raise w) = some (.error e)) ∧
    ∀ r, run p = some (.ok r) → ∃ r', run (p.raise w) = some (.ok r') ∧ DifferBy w r.result r'.result ∧
      r'.point = r.point ∧ r'.replacements = r.replacements ∧ r'.reduced = r.reduced.raise w ∧
      DifferBy w r.reducedResult r'.reducedResult := by
  intro run
  have h : run (p.raise w) = (run p).map fun r => r.map (RecResult.raise w) :=
    recursiveSolve_raise w (fun t q => minEigenSolve_raise w (eig t) pen₁ q) (fun q => minEigenSolve_raise w last pen₂ q)
      m pen₃ p fuel
  refine ⟨fun h1 => by rw [h, h1]; rfl, fun e h1 => by rw [h, h1]; rfl, fun r h1 => ?_⟩
  exact ⟨r.raise w, by rw [h, h1]; rfl, differBy_raise w _, rfl, rfl, rfl, differBy_raise w _⟩

/-- Two binary variables: the first eigensolver returns a string of two different characters, so `y` is replaced by `1 - x`. -/
example : (match recursiveSolve (fun _ => minEigenSolve (fun op => some (.counts [(String.ofList
        ((List.range op.numQubits).map fun i => if i = 0 then '0' else '1'), 1)])) [quboConverter none])
      (minEigenSolve (fun _ => some (.counts [("1", 1)])) [quboConverter none]) 1 [quboConverter none]
      (groverQP.raise 5) 10 with
    | some (.ok r) => decide (r.replacements = [("y", "x", -1)] ∧ r.point = [1, 0] ∧ r.result.fval = some 6)
    | _ => false) = true := by decide +kernel

/-- **C109** (ADMM): when the answers of the continuous optimizer do not depend on the constant of the objective, the iterates
and the point are the same; the costs and merits differ by the constant, with the sign of the sense, and the value by the
constant. -/
theorem C109_admm (w : ℚ) (qubo cont : Solver) (norm : List ℚ → ℚ) (clock : Nat → Bool) (prm : AdmmParams) (p : QP)
    (hc : ∀ t q, cont t (q.raise (p.objective.sense.value * w)) = cont t q) :
    (∀ e, admmSolve qubo cont norm clock prm p = .error e → admmSolve qubo cont norm clock prm (p.raise w) = .error e) ∧
    ∀ a, admmSolve qubo cont norm clock prm p = .ok a → ∃ a', admmSolve qubo cont norm clock prm (p.raise w) = .ok a' ∧
      a'.point = a.point ∧ DifferBy w a.result a'.result ∧ a'.state.x0Saved = a.state.x0Saved ∧
      a'.state.uSaved = a.state.uSaved ∧ a'.state.zSaved = a.state.zSaved ∧ a'.state.residuals = a.state.residuals ∧
      a'.state.costs = a.state.costs.map (· + p.objective.sense.value * w) ∧
      a'.state.merits = a.state.merits.map (· + p.objective.sense.value * w) := by
  have h := admmSolve_raise w qubo cont norm clock prm p hc
  refine ⟨fun e he => ?_, fun a ha => ?_⟩
  · rw [h, he]; rfl
  · rw [ha] at h
    exact ⟨_, h, rfl, differBy_raise w _, rfl, rfl, rfl, rfl, rfl, rfl⟩

/-- The contract holds for the solvers of the concrete run. -/
example : (∀ t q v, admmCont t (QP.raise v q) = admmCont t q) ∧
    (admmSolve admmQubo admmCont norm1 (fun _ => true) (admmDefaults 2) (admmQP.raise 10)).toOption.map
      (fun a => (a.result.x, a.result.fval, a.result.status)) = some (some [1, 1, 0], some 15, .success) := by
  exact ⟨fun t q v => rfl, by decide +kernel⟩

/-- **C109**, partial (multi-start).  Full statement: for both senses and all constants, the trial that is chosen does not depend
on the constant.  Proved: minimization, any number of trials, as long as neither the values nor the raised values reach
`1e20`.  Missing (false, `C109_violated`, `C109_violated_large`): maximization; larger values. -/
theorem C109_local_partial (w clip : ℚ) (u : Nat → Nat → ℚ) (minimize : Nat → List ℚ → Except Err (List ℚ)) (p : QP)
    (hs : p.objective.sense = .minimize)
    (hb : ∀ t x0 x v, minimize t x0 = .ok x → p.objective.evaluate x = .ok v → v < INFINITY ∧ v + w < INFINITY)
    (trials : Nat) :
    (∀ e, multiStartSolve trials clip u minimize p = .error e →
      multiStartSolve trials clip u minimize (p.raise w) = .error e) ∧
    ∀ r, multiStartSolve trials clip u minimize p = .ok r →
      ∃ r', multiStartSolve trials clip u minimize (p.raise w) = .ok r' ∧ DifferBy w r r' := by
  have h := multiStart_raise (clip := clip) (u := u) hs hb trials
  refine ⟨fun e he => ?_, fun r hr => ⟨r.raise w, ?_, differBy_raise w r⟩⟩
  · rw [h, he]; rfl
  · rw [h, hr]; rfl

/-- Minimise `x` over `[0, 10]`. -/
def minLineQP : QP :=
  (runCalls (QP.empty "") [.addVar 0 10 .continuous (some "x"), .objective .minimize 0 (.dict [(.name "x", 1)]) (.dict [])]).2

/-- The answers 5, 3, 1, …: the last of three trials is chosen. -/
example : minLineQP.objective.sense = .minimize ∧
    (∀ t x0 x v, decreasingAnswers t x0 = .ok x → minLineQP.objective.evaluate x = .ok v →
      v < INFINITY ∧ v + 7 < INFINITY) ∧
    (multiStartSolve 3 100 (fun _ _ => 1 / 2) decreasingAnswers (minLineQP.raise 7)).toOption.map
      (fun r => (r.x, r.fval)) = some (some [1], some 8) := by
  refine ⟨by decide +kernel, ?_, by decide +kernel⟩
  intro t x0 x v hx hv
  simp only [decreasingAnswers, Except.ok.injEq] at hx
  subst hx
  have ho : minLineQP.objective = ⟨0, ⟨1, [(0, 1)]⟩, ⟨1, []⟩, .minimize⟩ := by decide +kernel
  rw [ho] at hv
  have hval := (Objective.evaluate_inv hv).2.2
  have ht : (0 : ℚ) ≤ t := Nat.cast_nonneg t
  have hv' : v = 5 - 2 * t := by
    rw [hval]
    simp [Objective.val, LinExpr.val, QuadExpr.val, Dict.sum, pt]
  constructor
  · unfold INFINITY; linarith
  · unfold INFINITY; linarith

/-- **C109** (COBYLA and SLSQP): the function handed to the numerical solver differs by a constant, the gradient, the constraints
and the bounds are the same. -/
theorem C109_solver_input (w : ℚ) (p : QP) :
    (∀ x, solverObjective (p.raise w) x = (solverObjective p x).map (· + p.objective.sense.value * w)) ∧
    solverGradient (p.raise w) = solverGradient p ∧ cobylaConstraints (p.raise w) = cobylaConstraints p ∧
    slsqpEq (p.raise w).csts = slsqpEq p.csts ∧ slsqpIneq (p.raise w).csts = slsqpIneq p.csts ∧
    slsqpBounds (p.raise w) = slsqpBounds p ∧ onlyContinuous (p.raise w) = onlyContinuous p :=
  ⟨solverObjective_raise w p, rfl, rfl, rfl, rfl, rfl, rfl⟩

example : ((solverObjective (maxLineQP.raise 7) [3]).toOption, (solverObjective maxLineQP [3]).toOption) =
    (some (-10), some (-3)) := by decide +kernel

/-- **C109 is violated** by COBYLA and SLSQP for maximization: with the answers 5 and 3 the maximum of `x` is reported at 3, the
maximum of `x - 10` at 5. -/
theorem C109_violated : ∃ (p : QP) (cobyla : Nat → Fn → List ℚ → List Fn → Except Err (List ℚ)) (r r' : Result),
    p.WF ∧ cobylaSolve cobyla 2 100 (fun _ _ => 1 / 2) p = .ok r ∧
    cobylaSolve cobyla 2 100 (fun _ _ => 1 / 2) (p.raise (-10)) = .ok r' ∧ r.x = some [3] ∧ r'.x = some [5] :=
  ⟨maxLineQP, fun t _ _ _ => decreasingAnswers t [], maxLineResult,
    ⟨some [5], some (-5), maxLineQP.vars, some [("x", 5)], .success, [], []⟩, by decide +kernel, by decide +kernel,
    by decide +kernel, by decide +kernel, by decide +kernel⟩

/-- **C109 is violated** by COBYLA and SLSQP for large constants: with a constant of `1e20` no trial is accepted and a TypeError
is raised. -/
theorem C109_violated_large : ∃ (p : QP) (cobyla : Nat → Fn → List ℚ → List Fn → Except Err (List ℚ)) (r : Result),
    p.WF ∧ p.objective.sense = .minimize ∧ cobylaSolve cobyla 2 100 (fun _ _ => 1 / 2) p = .ok r ∧ r.x = some [3] ∧
    cobylaSolve cobyla 2 100 (fun _ _ => 1 / 2) (p.raise (10 ^ 20)) = .error .typeError :=
  ⟨minLineQP, fun t _ _ _ => decreasingAnswers t [],
    ⟨some [3], some 3, minLineQP.vars, some [("x", 3)], .success, [], []⟩, by decide +kernel, by decide +kernel,
    by decide +kernel, by decide +kernel, by decide +kernel⟩

/-- **C109**, partial (Grover).  Full statement: the constant is added to all values and nothing else changes.  Proved: when
the same keys are measured, with values that fit into the register in both runs, and both constants of the QUBO are not zero, the
same number of measurements is made and the same point is found; its value and the threshold differ by the constant.  Missing
(false, `C109_grover_violated`): a constant that becomes zero.  The samples depend on the circuits. -/
theorem C109_grover_partial (w : ℚ) (measure : Nat → Objective → Outcome) (rot : Nat → Nat) (sqrt : ℚ → ℚ)
    (penalty : Option ℚ) (nValue nIt : Nat) (p : QP) (st : QuboState) (fuel : Nat) (key : Nat → Nat)
    (r r' : GroverResult) (hs : p.WF) (hq : p.toQubo penalty = .ok st) (hn : 0 < st.dst.objective.linear.n) (hv : 0 < nValue)
    (hm : Faithful st.dst.objective.linear.n nValue key measure)
    (hf : FitsRegister st.dst.objective.linear.n nValue key (groverObjective st.dst.objective))
    (hf' : FitsRegister st.dst.objective.linear.n nValue key (groverObjective (st.dst.raise w).objective))
    (h0 : st.dst.objective.constant ≠ 0) (h0' : st.dst.objective.constant + w ≠ 0)
    (h : groverSolve measure rot sqrt [quboConverter penalty] nValue nIt p fuel = some (.ok r))
    (h' : groverSolve measure rot sqrt [quboConverter penalty] nValue nIt (p.raise w) fuel = some (.ok r')) :
    r'.result.x = r.result.x ∧ r'.result.fval = r.result.fval.map (· + w) ∧ r'.result.status = r.result.status ∧
      r'.optX = r.optX ∧ r'.fval = r.fval + w ∧ r'.iterations = r.iterations ∧
      r'.threshold = r.threshold + p.objective.sense.value * w := by
  have hsense : st.dst.objective.sense = p.objective.sense := by
    obtain ⟨_, _, h1, h2, h3⟩ := toQubo_stages hq
    have hf1 := ineqToEq_facts hs h1
    have hf2 := intToBin_facts hf1.starts.wf h2
    have hf3 := toPenalty_facts hf2.wf h3
    rw [hf3.sense, hf2.sense, hf1.objective.1]
  rw [show (st.dst.raise w).objective = st.dst.objective.raise w from rfl, groverObjective_raise, hsense] at hf'
  have hc : ∀ (q : QP) (o : Objective), callersGrover [quboConverter penalty] o q = fun _ => q := fun _ _ => rfl
  unfold groverSolve at h h'
  rw [show quboMsg (p.raise w) = quboMsg p from rfl] at h'
  by_cases hmsg : (quboMsg p).length > 0
  · rw [if_pos hmsg] at h; simp at h
  · rw [if_neg hmsg] at h h'
    simp only [hc] at h h'
    simp only [convertAll, quboConverter] at h h'
    rw [toQubo_raise] at h'
    simp only [hq, Except.map, interpret_raise, show (st.raise w).dst = st.dst.raise w from rfl, groverObjective_n] at h h'
    rw [show (st.dst.raise w).objective = st.dst.objective.raise w from rfl, groverObjective_raise, hsense,
      show (st.dst.objective.raise w).linear.n = st.dst.objective.linear.n from rfl] at h'
    split at h
    · simp at h
    · simp at h
    · rename_i t ht
      split at h'
      · simp at h'
      · simp at h'
      · rename_i t' ht'
        have hi := (groverLoop_inv hn hv hm hf (groverInit_inv _ _ _) ht)
        have hi' := (groverLoop_inv hn hv hm hf' (groverInit_inv _ _ _) ht')
        have hr := groverLoop_raise hn hv hm hf hf' (groverInit_inv _ _ _) (groverInit_inv _ _ _)
          ⟨rfl, rfl, rfl, rfl, rfl, rfl⟩ ht ht'
        obtain ⟨v, hopt⟩ := Option.ne_none_iff_exists'.mp hi.2.2
        have hopt' := hr.value
        rw [hopt] at hopt'
        have hthr := (hi.1.best v hopt).1
        have hthr' := (hi'.1.best _ hopt').1
        have c1 : (groverObjective st.dst.objective).constant ≠ 0 := by
          rw [groverObjective_constant]
          cases st.dst.objective.sense <;> simpa [ObjSense.value] using h0
        have c2 : ((groverObjective st.dst.objective).raise (p.objective.sense.value * w)).constant ≠ 0 := by
          rw [← hsense, ← groverObjective_raise, groverObjective_constant]
          show st.dst.objective.sense.value * (st.dst.objective.constant + w) ≠ 0
          exact mul_ne_zero (by cases st.dst.objective.sense <;> simp [ObjSense.value]) h0'
        simp only [Option.some.injEq, groverFinish, c1, c2, and_false, if_false, hr.key] at h h'
        generalize keyToPoint st.dst.objective.linear.n t.optKey = x at h h'
        rw [show (st.dst.raise w).objective = st.dst.objective.raise w from rfl, evaluate_raise] at h'
        cases he : st.dst.objective.evaluate x with
        | error e => simp [he] at h
        | ok fv =>
          simp only [he, Except.map] at h h'
          cases h1 : interpretResult p [st.interpret] t.samples t.raw x with
          | error e => simp [h1] at h
          | ok res =>
            cases h2 : interpretResult (p.raise w) [st.interpret] t'.samples t'.raw x with
            | error e => simp [h2] at h'
            | ok res' =>
              simp only [h1, h2, Except.ok.injEq] at h h'
              subst h
              subst h'
              have hres := interpretResult_raise_any h1 h2
              exact ⟨hres.1, hres.2.1, hres.2.2, rfl, rfl, hr.it, by rw [hthr, hthr']⟩

/-- The measurements of `groverKeys` for `groverQP` with the constants 1 and 3. -/
example : (match (groverQP.raise 1).toQubo none with
      | .ok st => decide (st.dst.objective.linear.n = 2 ∧ st.dst.objective.constant = 1)
      | _ => false) = true ∧
    Faithful 2 4 groverKeys (simMeasure 2 4 groverKeys groverCircuit) ∧
    FitsRegister 2 4 groverKeys (groverObjective (groverQP.raise 1).objective) ∧
    FitsRegister 2 4 groverKeys (groverObjective ((groverQP.raise 1).raise 2).objective) ∧
    (match groverSolve (simMeasure 2 4 groverKeys groverCircuit) (fun _ => 0) id [quboConverter none] 4 3
        (groverQP.raise 1) 100,
      groverSolve (simMeasure 2 4 groverKeys groverCircuit) (fun _ => 0) id [quboConverter none] 4 3
        ((groverQP.raise 1).raise 2) 100 with
    | some (.ok r), some (.ok r') => decide (r.result.x = r'.result.x ∧ r.result.fval = some 3 ∧ r'.result.fval = some 5 ∧
        r.threshold = -3 ∧ r'.threshold = -5)
    | _, _ => false) = true := by
  have hk : ∀ i, groverKeys i < 4 := by
    intro i
    have : i % 4 < 4 := Nat.mod_lt _ (by norm_num)
    unfold groverKeys
    generalize i % 4 = k at this
    interval_cases k <;> simp
  have hfit : ∀ o : Objective, (∀ k < 4, (o.val (pt (keyPt 2 k))).den = 1 ∧ -8 ≤ (o.val (pt (keyPt 2 k))).num ∧
        (o.val (pt (keyPt 2 k))).num < 8) →
      (∀ k < 4, ∀ l < 4, (o.val (pt (keyPt 2 k)) - o.val (pt (keyPt 2 l))).den = 1 ∧
        -8 ≤ (o.val (pt (keyPt 2 k)) - o.val (pt (keyPt 2 l))).num ∧
        (o.val (pt (keyPt 2 k)) - o.val (pt (keyPt 2 l))).num < 8) → FitsRegister 2 4 groverKeys o := by
    intro o hv hd
    refine ⟨fun i => ?_, fun i j => ?_⟩
    · obtain ⟨a, b, c⟩ := hv _ (hk i)
      exact ⟨_, (Rat.den_eq_one_iff _).mp a |>.symm, by simpa using b, by simpa using c⟩
    · obtain ⟨a, b, c⟩ := hd _ (hk i) _ (hk j)
      exact ⟨_, (Rat.den_eq_one_iff _).mp a |>.symm, by simpa using b, by simpa using c⟩
  exact ⟨by decide +kernel, simMeasure_faithful hk, hfit _ (by decide +kernel) (by decide +kernel),
    hfit _ (by decide +kernel) (by decide +kernel), by decide +kernel⟩

/-- **C109 is violated** by the Grover optimizer: when only the key 1 is measured, the minimum of `x` is reported at 0, the
minimum of `x + 1` at 1. -/
theorem C109_grover_violated : ∃ (p : QP) (r r' : GroverResult), p.WF ∧ Faithful 1 4 (fun _ => 1)
      (simMeasure 1 4 (fun _ => 1) (.state [(0, 0), (1, 0)])) ∧
    groverSolve (simMeasure 1 4 (fun _ => 1) (.state [(0, 0), (1, 0)])) (fun _ => 0) id [quboConverter none] 4 3 p 100 =
      some (.ok r) ∧
    groverSolve (simMeasure 1 4 (fun _ => 1) (.state [(0, 0), (1, 0)])) (fun _ => 0) id [quboConverter none] 4 3
      (p.raise 1) 100 = some (.ok r') ∧
    r.result.x = some [0] ∧ r.result.fval = some 0 ∧ r'.result.x = some [1] ∧ r'.result.fval = some 2 := by
  let p : QP := (runCalls (QP.empty "") [.addVar 0 1 .binary (some "x"),
    .objective .minimize 0 (.dict [(.name "x", 1)]) (.dict [])]).2
  have hd : (match groverSolve (simMeasure 1 4 (fun _ => 1) (.state [(0, 0), (1, 0)])) (fun _ => 0) id
        [quboConverter none] 4 3 p 100,
      groverSolve (simMeasure 1 4 (fun _ => 1) (.state [(0, 0), (1, 0)])) (fun _ => 0) id [quboConverter none] 4 3
        (p.raise 1) 100 with
    | some (.ok r), some (.ok r') => decide (r.result.x = some [0] ∧ r.result.fval = some 0 ∧ r'.result.x = some [1] ∧
        r'.result.fval = some 2)
    | _, _ => false) = true := by decide +kernel
  split at hd
  · rename_i r r' h1 h2
    simp only [decide_eq_true_eq] at hd
    exact ⟨p, r, r', by decide +kernel, simMeasure_faithful (fun _ => by norm_num), h1, h2, hd⟩
  · simp at hd

end Verif
