import Verif.Mirror
import Verif.PropsQubo
import Verif.PropsFeasible
import Verif.Grover
import Verif.Multistart

/-!
# C117: `f(x) <= b` written as `-f(x) >= -b`
-/

namespace Verif

/-- **C117** (the program): giving the negated coefficients, in any of the accepted forms, with the opposite sense and the negated
right-hand side has the same outcome and makes a program with this constraint multiplied by -1. -/
theorem C117_build (p : QP) (l : LinInput) (q : QuadInput) (s : Sense) (r : ℚ) (n : Option String) :
    (match p.linearConstraint l (.sense s) r n, p.linearConstraint l.neg (.sense s.mirror) (-r) n with
      | (.ok _, d), (.ok _, d') => Mirrored d d'
      | (.error e, _), (.error e', _) => e' = e
      | _, _ => False) ∧
    (match p.quadraticConstraint l q (.sense s) r n, p.quadraticConstraint l.neg q.neg (.sense s.mirror) (-r) n with
      | (.ok _, d), (.ok _, d') => Mirrored d d'
      | (.error e, _), (.error e', _) => e' = e
      | _, _ => False) := by
  have h1 := (Mirrored.refl p).linearConstraint true l (si := .sense s) (si' := .sense s.mirror) rfl rfl r n
  have h2 := (Mirrored.refl p).quadraticConstraint true l q (si := .sense s) (si' := .sense s.mirror) rfl rfl r n
  rw [show tl true l = l.neg from rfl, show tv true r = -r from rfl] at h1 h2
  rw [show tq true q = q.neg from rfl] at h2
  constructor
  · revert h1
    generalize p.linearConstraint l (.sense s) r n = u
    generalize p.linearConstraint l.neg (.sense s.mirror) (-r) n = u'
    obtain ⟨u | u, x⟩ := u <;> obtain ⟨u' | u', x'⟩ := u' <;> exact id
  · revert h2
    generalize p.quadraticConstraint l q (.sense s) r n = u
    generalize p.quadraticConstraint l.neg q.neg (.sense s.mirror) (-r) n = u'
    obtain ⟨u | u, x⟩ := u <;> obtain ⟨u' | u', x'⟩ := u' <;> exact id

/-- A constraint multiplied by -1 holds at the same points, also with the tolerance of the equalities. -/
theorem C117_meaning (c : Cst) (x : Nat → ℚ) : c.mirror.name = c.name ∧ c.mirror.val x = -c.val x ∧
    (c.mirror.sense.rel (c.mirror.val x) c.mirror.rhs ↔ c.sense.rel (c.val x) c.rhs) ∧
    (c.mirror.sense.relTol (c.mirror.val x) c.mirror.rhs ↔ c.sense.relTol (c.val x) c.rhs) := by
  have hv : c.mirror.val x = -c.val x := by
    cases c with
    | lin c => simp only [Cst.mirror, LinCst.mirror, Cst.val, LinExpr.val, sum_negD]
    | quad c =>
      simp only [Cst.mirror, QuadCst.mirror, Cst.val, LinExpr.val, QuadExpr.val, sum_negD]
      ring
  have hs : c.mirror.sense = c.sense.mirror := by cases c <;> rfl
  have hr : c.mirror.rhs = -c.rhs := by cases c <;> rfl
  refine ⟨by cases c <;> rfl, hv, ?_, ?_⟩
  · rw [hv, hs, hr]
    cases c.sense <;> simp [Sense.mirror, Sense.rel]
  · rw [hv, hs, hr]
    cases c.sense with
    | le => simp [Sense.mirror, Sense.relTol]
    | ge => simp [Sense.mirror, Sense.relTol]
    | eq =>
      simp only [Sense.mirror, Sense.relTol, abs_neg]
      rw [show -c.val x - -c.rhs = -(c.val x - c.rhs) by ring, abs_neg]

/-- The program of the examples: `fullQP` with its inequality and its equality written the other way round. -/
def mirrorQP : QP := { fullQP with lins := fullQP.lins.map LinCst.mirror }

theorem mirrorQP_mirrored : Mirrored fullQP mirrorQP := by
  refine ⟨_, fullQP.quads, rfl, ?_, List.forall₂_same.mpr fun _ _ => .inl rfl⟩
  rw [List.forall₂_map_right_iff]
  exact List.forall₂_same.mpr fun _ _ => .inr rfl

example : mirrorQP.lins.map (fun c => (c.sense, c.rhs)) = [(.ge, -3), (.eq, -1)] ∧
    fullQP.lins.map (fun c => (c.sense, c.rhs)) = [(.le, 3), (.eq, 1)] := by decide +kernel

/-- **C117** (feasibility): the same verdict, the same violated variables, and the corresponding violated constraints, or the same
error. -/
theorem C117_feasible {p p' : QP} (h : Mirrored p p') (x : List ℚ) :
    (∀ e, p.getFeasibilityInfo x = .error e → p'.getFeasibilityInfo x = .error e) ∧
    (∀ b vv vc, p.getFeasibilityInfo x = .ok (b, vv, vc) → ∃ vc', p'.getFeasibilityInfo x = .ok (b, vv, vc') ∧
      List.Forall₂ (fun c c' => c' = c ∨ c' = Cst.mirror c) vc vc') ∧
    p'.isFeasible x = p.isFeasible x := by
  obtain ⟨h1, h2⟩ := h.feasibilityInfo x
  refine ⟨h1, h2, ?_⟩
  unfold QP.isFeasible
  cases hr : p.getFeasibilityInfo x with
  | error e => rw [h1 e hr]
  | ok r =>
    obtain ⟨vc', h', -⟩ := h2 r.1 r.2.1 r.2.2 hr
    rw [h']

example : (mirrorQP.getFeasibilityInfo [1, 3, 1]).toOption.map (fun r => (r.1, r.2.2.map Cst.name)) =
    some (false, ["c", "e"]) ∧ mirrorQP.isFeasible [1, 1, 0] = .ok true := by decide +kernel

/-- **C117** (slack variables): in every mode the same error, or programs with the same variables and objective whose equalities
differ by the sign only; in particular the slack variables and their bounds are the same. -/
theorem C117_slack (mode : SlackMode) {p p' : QP} (h : Mirrored p p') :
    (∀ e, p.ineqToEq mode = .error e → p'.ineqToEq mode = .error e) ∧
    ∀ d, p.ineqToEq mode = .ok d → ∃ d', p'.ineqToEq mode = .ok d' ∧ Mirrored d d' ∧
      ∀ x, ineqInterpret p' d' x = ineqInterpret p d x := by
  have hr := ineqToEq_td mode h
  revert hr
  cases p.ineqToEq mode <;> cases p'.ineqToEq mode <;> intro hr
  · cases (hr : _ = _)
    exact ⟨fun e he => he, fun d hd => by cases hd⟩
  · exact hr.elim
  · exact hr.elim
  · rename_i d d'
    have hm : Mirrored d d' := hr
    refine ⟨fun e he => (by cases he), fun w hw => ?_⟩
    cases hw
    refine ⟨d', rfl, hm, fun x => ?_⟩
    simp only [ineqInterpret, hm.vars, h.vars]

example : (mirrorQP.ineqToEq .integer).toOption.map (fun d => d.vars.map fun v => (v.name, v.ub)) =
      some [("b", 1), ("x", 3), ("y", 1), ("c@int_slack", 3)] ∧
    (mirrorQP.ineqToEq .integer).toOption.map (fun d => d.lins.map fun c => (c.linear.coeffs, c.rhs)) =
      some [([(0, -2), (1, -1), (3, -1)], -3), ([(1, -1), (2, 1)], -1)] := by decide +kernel

/-- **C117** (bits): the same error, or the same variables, encoding, objective and interpretation, and constraints that differ by
the sign only. -/
theorem C117_bits {p p' : QP} (h : Mirrored p p') :
    (∀ e, p.intToBin = .error e → p'.intToBin = .error e) ∧
    ∀ c, p.intToBin = .ok c → ∃ c', p'.intToBin = .ok c' ∧ Mirrored c.dst c'.dst ∧ c'.conv = c.conv ∧
      ∀ x, c'.interpret x = c.interpret x := by
  have hr := intToBin_td h
  revert hr
  cases p.intToBin <;> cases p'.intToBin <;> intro hr
  · cases (hr : _ = _)
    exact ⟨fun e he => he, fun d hd => by cases hd⟩
  · exact hr.elim
  · exact hr.elim
  · rename_i c c'
    obtain ⟨i1, i2, i3⟩ := (hr : Mirrored c.src c'.src ∧ Mirrored c.dst c'.dst ∧ c'.conv = c.conv)
    refine ⟨fun e he => (by cases he), fun w hw => ?_⟩
    cases hw
    refine ⟨c', rfl, i2, i3, fun x => ?_⟩
    simp only [I2B.interpret, i1.vars, i2.vars, i3]

example : mirrorQP.intToBin.toOption.map (fun c => c.dst.lins.map fun k => (k.linear.coeffs, k.sense, k.rhs)) =
    some [([(0, -2), (1, -1), (2, -2)], .ge, -3), ([(1, -1), (2, -2), (3, 1), (4, 1)], .eq, 0)] := by decide +kernel

/-- **C117** (penalty): exactly the same result, penalty and error. -/
theorem C117_penalty (penalty : Option ℚ) {p p' : QP} (h : Mirrored p p') : p'.toPenalty penalty = p.toPenalty penalty :=
  toPenalty_td h penalty

example : (match mirrorQP.ineqToEq .integer, fullQP.ineqToEq .integer with
    | .ok d, .ok e => decide (d ≠ e ∧ (d.toPenalty none).toOption = (e.toPenalty none).toOption ∧
        (d.toPenalty none).toOption.map (fun r => r.2) = some 7)
    | _, _ => false) = true := by decide +kernel

/-- **C117** (QUBO): the same error, or exactly the same QUBO, with the same penalty and the same interpretation of points. -/
theorem C117_qubo (penalty : Option ℚ) {p p' : QP} (h : Mirrored p p') :
    (∀ e, p.toQubo penalty = .error e → p'.toQubo penalty = .error e) ∧
    ∀ st, p.toQubo penalty = .ok st → ∃ st', p'.toQubo penalty = .ok st' ∧ st'.dst = st.dst ∧ st'.pen = st.pen ∧
      st'.interpret = st.interpret := by
  have hr := toQubo_td h penalty
  revert hr
  cases p.toQubo penalty <;> cases p'.toQubo penalty <;> intro hr
  · cases (hr : _ = _)
    exact ⟨fun e he => he, fun d hd => by cases hd⟩
  · exact hr.elim
  · exact hr.elim
  · rename_i c c'
    refine ⟨fun e he => (by cases he), fun w hw => ?_⟩
    cases hw
    exact ⟨c', rfl, hr⟩

example : (mirrorQP.toQubo none).toOption.map (fun st => (st.dst, st.pen)) =
      (fullQP.toQubo none).toOption.map (fun st => (st.dst, st.pen)) ∧
    (mirrorQP.toQubo none).toOption.map (fun st => (st.dst.numVars, st.pen)) = some (7, 14) := by decide +kernel

section solvers
variable {p p' : QP}

theorem Mirrored.status (h : Mirrored p p') (x : List ℚ) : feasibilityStatus p' x = feasibilityStatus p x := by
  unfold feasibilityStatus
  rw [(C117_feasible h x).2.2]

theorem Mirrored.evalSamples (h : Mirrored p p') (l : Assoc (List ℚ) ℚ) : evalSamples p' l = evalSamples p l := by
  induction l with
  | nil => rfl
  | cons a l ih =>
    obtain ⟨x, w⟩ := a
    simp only [Verif.evalSamples, h.objective, h.status, ih]

theorem Mirrored.samples (h : Mirrored p p') (raw : List Sample) (convs : List Interp) :
    interpretSamples p' raw convs = interpretSamples p raw convs := by
  unfold interpretSamples
  simp only [h.evalSamples, h.objective]

theorem Mirrored.result (h : Mirrored p p') (convs : List Interp) (samples raw : List Sample) (x : List ℚ) :
    interpretResult p' convs samples raw x = interpretResult p convs samples raw x := by
  unfold interpretResult
  simp only [h.objective, h.status, h.vars]

/-- **C117** (minimum eigen optimizer): for every eigensolver, whatever it returns, the result is identical, with all samples and
raw samples, or the same error is raised. -/
theorem C117_min_eigen (solver : QubitOp → Option Eigenstate) (penalty : Option ℚ) (h : Mirrored p p') :
    minEigenSolve solver [quboConverter penalty] p' = minEigenSolve solver [quboConverter penalty] p := by
  unfold minEigenSolve
  rw [quboMsg_td h]
  split
  · rfl
  · simp only [convertAll, quboConverter]
    cases hq : p.toQubo penalty with
    | error e => rw [(C117_qubo penalty h).1 e hq]
    | ok st =>
      obtain ⟨st', h', h1, -, h3⟩ := (C117_qubo penalty h).2 st hq
      rw [h']
      simp only [h1, h3]
      cases st.dst.toIsing with
      | error e => rfl
      | ok r => simp only [solveInternal, h.samples, h.result, h.vars]

example : (minEigenSolve (fun _ => some (.counts [("1100100", 3), ("0000000", 1)])) [quboConverter none]
      mirrorQP).toOption.map (fun r => (r.x, r.fval)) = some (some [1, 1, 0], some 4) := by decide +kernel

theorem groverLoop_mirror (h : Mirrored p p') (measure : Nat → Objective → Outcome) (rot : Nat → Nat) (sqrt : ℚ → ℚ)
    (obj : Objective) (qubo : QP) (convs : List Interp) (nKey nValue nIt maxRot fuel : Nat) (s : GroverState) :
    groverLoop measure rot sqrt obj (fun _ => p') qubo convs nKey nValue nIt maxRot fuel s =
      groverLoop measure rot sqrt obj (fun _ => p) qubo convs nKey nValue nIt maxRot fuel s := by
  induction fuel generalizing s with
  | zero => rfl
  | succ n ih => simp only [groverLoop, h.samples, ih]

/-- **C117** (Grover): for all outcomes of all measurements the result, with its samples, point, value, threshold and number of
iterations, is identical, or the same error is raised. -/
theorem C117_grover (measure : Nat → Objective → Outcome) (rot : Nat → Nat) (sqrt : ℚ → ℚ) (penalty : Option ℚ)
    (nValue nIt : Nat) (fuel : Nat) (h : Mirrored p p') :
    (groverSolve measure rot sqrt [quboConverter penalty] nValue nIt p' fuel).map
        (Except.map fun r => (r.result, r.optX, r.fval, r.threshold, r.iterations)) =
      (groverSolve measure rot sqrt [quboConverter penalty] nValue nIt p fuel).map
        (Except.map fun r => (r.result, r.optX, r.fval, r.threshold, r.iterations)) := by
  unfold groverSolve
  rw [quboMsg_td h]
  split
  · rfl
  · have hc : ∀ (q : QP) (o : Objective), callersGrover [quboConverter penalty] o q = fun _ => q := fun _ _ => rfl
    simp only [hc]
    simp only [convertAll, quboConverter]
    cases hq : p.toQubo penalty with
    | error e => rw [(C117_qubo penalty h).1 e hq]
    | ok st =>
      obtain ⟨st', h', h1, -, h3⟩ := (C117_qubo penalty h).2 st hq
      rw [h']
      simp only [h1, h3, groverLoop_mirror h]
      generalize groverLoop measure rot sqrt _ _ _ _ _ _ _ _ _ _ = g
      cases g with
      | none => rfl
      | some g =>
        cases g with
        | error e => rfl
        | ok s =>
          simp only [groverFinish, h.result]
          split <;> try rfl
          split <;> rfl

/-- A run with three measurements. -/
example : (groverSolve (fun _ _ => ⟨"00100110011".toList, .counts 4 [("00111111100", 2), ("11111001001", 1)]⟩) (fun _ => 0) id
      [quboConverter none] 4 2 mirrorQP 10).map
        (fun r => r.toOption.map fun r => (r.iterations, r.result.x, r.result.samples.length)) =
    some (some (3, some [0, 2, -1], 2)) := by decide +kernel

/-- **C117** (COBYLA and SLSQP): the functions handed to the numerical solvers.  The inequalities for SLSQP are the same functions
in the same order, its equalities differ by the sign; COBYLA gets the same functions, where the two of an equality may change
places. -/
theorem C117_solver_input (h : Mirrored p p') :
    solverObjective p' = solverObjective p ∧ slsqpBounds p' = slsqpBounds p ∧ onlyContinuous p' = onlyContinuous p ∧
    slsqpIneq p'.csts = slsqpIneq p.csts ∧
    List.Forall₂ (fun f f' => f' = f ∨ ∀ x, f' x = (f x).map (-·)) (slsqpEq p.csts) (slsqpEq p'.csts) ∧
    (cobylaConstraints p').Perm (cobylaConstraints p) := by
  have hr : ∀ c : Cst, rhsMinus c.mirror = minusRhs c := by
    intro c
    funext x
    simp only [rhsMinus, minusRhs, evaluate_mirror]
    rw [show c.mirror.rhs = -c.rhs by cases c <;> rfl]
    cases c.evaluate x with
    | error e => rfl
    | ok v => simp only [Except.map]; congr 1; ring
  have hl : ∀ c : Cst, minusRhs c.mirror = rhsMinus c := by
    intro c
    funext x
    simp only [rhsMinus, minusRhs, evaluate_mirror]
    rw [show c.mirror.rhs = -c.rhs by cases c <;> rfl]
    cases c.evaluate x with
    | error e => rfl
    | ok v => simp only [Except.map]; congr 1; ring
  have hn : ∀ (c : Cst) x, minusRhs c x = (rhsMinus c x).map (-·) := by
    intro c x
    simp only [rhsMinus, minusRhs]
    cases c.evaluate x with
    | error e => rfl
    | ok v => simp only [Except.map]; congr 1; ring
  have hs : ∀ c : Cst, c.mirror.sense = c.sense.mirror := by intro c; cases c <;> rfl
  refine ⟨?_, ?_, ?_, ?_, ?_, ?_⟩
  · unfold solverObjective; rw [h.objective]
  · unfold slsqpBounds; rw [h.vars]
  · unfold onlyContinuous QP.numContinuous; rw [h.vars]
  · have hcs := h.csts
    generalize p.csts = K, p'.csts = K' at hcs ⊢
    induction hcs with
    | nil => rfl
    | cons h1 _ ih =>
      rename_i c c' _ _ _
      rcases h1 with rfl | rfl
      · simp only [slsqpIneq, ih]
      · simp only [slsqpIneq, ih, hs, hr, hl]
        cases c.sense <;> rfl
  · have hcs := h.csts
    generalize p.csts = K, p'.csts = K' at hcs ⊢
    induction hcs with
    | nil => exact .nil
    | cons h1 _ ih =>
      rename_i c c' _ _ _
      rcases h1 with rfl | rfl
      · simp only [slsqpEq]
        split
        · exact .cons (.inl rfl) ih
        · exact ih
        · exact ih
      · simp only [slsqpEq, hs]
        cases c.sense with
        | le => exact ih
        | ge => exact ih
        | eq => exact .cons (.inr fun x => by rw [hr, hn]) ih
  · unfold cobylaConstraints
    rw [h.vars]
    refine List.Perm.append_left _ ?_
    have hcs := h.csts
    generalize p.csts = K, p'.csts = K' at hcs ⊢
    induction hcs with
    | nil => exact .refl _
    | cons h1 _ ih =>
      rename_i c c' _ _ _
      rcases h1 with rfl | rfl
      · exact List.Perm.append_left _ ih
      · simp only [cstFns, hs, hr, hl]
        cases c.sense with
        | le => exact ih.cons _
        | ge => exact ih.cons _
        | eq => exact (List.Perm.swap _ _ _).trans ((ih.cons _).cons _)

example : (cobylaConstraints mirrorQP).map (fun f => (f [1, 2, 0]).toOption) =
      [some 1, some 0, some 2, some 1, some 1, some 1, some (-1), some 1, some (-1)] ∧
    (cobylaConstraints fullQP).map (fun f => (f [1, 2, 0]).toOption) =
      [some 1, some 0, some 2, some 1, some 1, some 1, some (-1), some (-1), some 1] := by decide +kernel

end solvers

end Verif
