import Verif.Opposite
import Verif.Recursive

/-!
# The recursive optimizer on opposite programs

Helper lemmas for C108: substitution and the loop of the recursive optimizer.
-/

namespace Verif

theorem subsConstants_opposite (src : QP) (l : List (Key × ℚ)) (s : Subs) :
    subsConstants src.opposite l s = subsConstants src l s := by
  induction l generalizing s with
  | nil => rfl
  | cons p l ih =>
    obtain ⟨i, v⟩ := p
    simp only [subsConstants, show src.opposite.getVariable i = src.getVariable i from rfl, ih]

theorem subsVariables_opposite (src : QP) (l : List (Key × Key × ℚ)) (s : Subs) :
    subsVariables src.opposite l s = subsVariables src l s := by
  induction l generalizing s with
  | nil => rfl
  | cons p l ih =>
    obtain ⟨i, j, v⟩ := p
    simp only [subsVariables, show ∀ k, src.opposite.getVariable k = src.getVariable k from fun _ => rfl, ih]

theorem subsDict_opposite (src : QP) (c : List (Key × ℚ)) (l : List (Key × Key × ℚ)) :
    subsDict src.opposite c l = subsDict src c l := by
  simp only [subsDict, subsConstants_opposite, subsVariables_opposite]

theorem adjustBounds_opposite (src : QP) (l : Subs) (dst : QP) (f : Bool) :
    adjustBounds src.opposite l dst f = adjustBounds src l dst f := by
  induction l generalizing dst f with
  | nil => rfl
  | cons p l ih =>
    obtain ⟨i, j, v⟩ := p
    simp only [adjustBounds, show ∀ k, src.opposite.getVariable k = src.getVariable k from fun _ => rfl, ih]

theorem substVars_opposite (src : QP) (subs : Subs) (dst : QP) :
    substVars src.opposite subs dst = substVars src subs dst := by
  simp only [substVars, show src.opposite.vars = src.vars from rfl, adjustBounds_opposite]

theorem substLinStep_neg (subs : Subs) (l : Dict String) (st : List ℚ × Dict String) :
    (negD l).foldl (substLinStep subs) (st.1.map fun v => -v, negD st.2) =
      ((l.foldl (substLinStep subs) st).1.map fun v => -v, negD (l.foldl (substLinStep subs) st).2) := by
  induction l generalizing st with
  | nil => rfl
  | cons p l ih =>
    rw [show negD (p :: l) = (p.1, -p.2) :: negD l from rfl, List.foldl_cons, List.foldl_cons, ← ih]
    congr 1
    simp only [substLinStep]
    split
    · simp
    · simp only [Prod.mk.injEq, true_and]
      rw [show -p.2 * (repl subs p.1).2 = -(p.2 * (repl subs p.1).2) by ring, add_negD]

theorem substQuadStep_neg (subs : Subs) (l : Dict (String × String)) (st : SubstQuadState) :
    (negD l).foldl (substQuadStep subs) (st.1.map fun v => -v, negD st.2.1, negD st.2.2) =
      ((l.foldl (substQuadStep subs) st).1.map fun v => -v, negD (l.foldl (substQuadStep subs) st).2.1,
        negD (l.foldl (substQuadStep subs) st).2.2) := by
  induction l generalizing st with
  | nil => rfl
  | cons p l ih =>
    rw [show negD (p :: l) = (p.1, -p.2) :: negD l from rfl, List.foldl_cons, List.foldl_cons, ← ih]
    congr 1
    simp only [substQuadStep]
    rw [show -p.2 * (repl subs p.1.1).2 * (repl subs p.1.2).2 = -(p.2 * (repl subs p.1.1).2 * (repl subs p.1.2).2) by ring]
    split <;> split <;> simp [add_negD]

theorem substLinear_opposite (src dst : QP) (subs : Subs) (e : LinExpr) :
    substLinear src.opposite dst subs ⟨e.n, negD e.coeffs⟩ =
      (substLinear src dst subs e).map fun r => (r.1.map fun v => -v, ⟨r.2.n, negD r.2.coeffs⟩) := by
  unfold substLinear
  simp only [show src.opposite.vars = src.vars from rfl, linToDictNames_negD]
  have h := substLinStep_neg subs (e.toDictNames src.vars) ([], [])
  simp only [List.map_nil, show negD ([] : Dict String) = [] from rfl] at h
  rw [h, linNames_negD, linExpr_neg]
  cases LinExpr.ofInput dst.varsIndex dst.numVars _ <;> rfl

theorem substQuadratic_opposite (src dst : QP) (subs : Subs) (e : QuadExpr) :
    substQuadratic src.opposite dst subs ⟨e.n, negD e.coeffs⟩ =
      (substQuadratic src dst subs e).map fun r =>
        (r.1.map fun v => -v, ⟨r.2.1.n, negD r.2.1.coeffs⟩, ⟨r.2.2.n, negD r.2.2.coeffs⟩) := by
  unfold substQuadratic
  simp only [show src.opposite.vars = src.vars from rfl, quadToDictNames_negD]
  have h := substQuadStep_neg subs (e.toDictNames src.vars) ([], [], [])
  simp only [List.map_nil, show negD ([] : Dict String) = [] from rfl,
    show negD ([] : Dict (String × String)) = [] from rfl] at h
  rw [h, linNames_negD, quadNames_negD, linExpr_neg]
  cases LinExpr.ofInput dst.varsIndex dst.numVars _ with
  | error e => rfl
  | ok l =>
    simp only [Except.map]
    rw [quadExpr_neg]
    cases QuadExpr.ofInput dst.varsIndex dst.numVars _ <;> rfl

theorem sum_map_neg (l : List ℚ) : (l.map fun v => -v).sum = -l.sum := by
  induction l with
  | nil => simp
  | cons a l ih => rw [List.map_cons, List.sum_cons, List.sum_cons, ih]; ring

theorem substObjective_opposite (src : QP) (subs : Subs) (dst : QP) :
    substObjective src.opposite subs dst = (substObjective src subs dst).map QP.opposite := by
  unfold substObjective
  simp only [objective_opposite]
  rw [substLinear_opposite]
  cases substLinear src dst subs src.objective.linear with
  | error e => rfl
  | ok r =>
    simp only [Except.map]
    rw [substQuadratic_opposite]
    cases substQuadratic src dst subs src.objective.quadratic with
    | error e => rfl
    | ok t =>
      simp only [Except.map]
      rw [dokPlus_negD, show ([-src.objective.constant] ++ r.1.map (fun v => -v) ++ t.1.map fun v => -v).sum =
        -([src.objective.constant] ++ r.1 ++ t.1).sum by
          simp only [List.sum_append, sum_map_neg, List.sum_singleton]; ring]
      have h := setObjective_neg dst src.objective.sense ([src.objective.constant] ++ r.1 ++ t.1).sum
        (.sparse ⟨dst.numVars, dokPlus r.2.coeffs t.2.1.coeffs⟩) (.sparse t.2.2)
      simp only [LinInput.neg, QuadInput.neg] at h
      rw [h]
      generalize dst.setObjective _ _ _ _ = a
      obtain ⟨a, p'⟩ := a
      cases a <;> rfl

theorem substLins_opposite (src : QP) (subs : Subs) (ks : List LinCst) (dst : QP) (f : Bool) :
    substLins src.opposite subs ks dst.opposite f =
      (substLins src subs ks dst f).map fun r => (r.1.opposite, r.2) := by
  induction ks generalizing dst f with
  | nil => rfl
  | cons k ks ih =>
    simp only [substLins]
    rw [show substLinear src.opposite dst.opposite subs k.linear = substLinear src dst subs k.linear from rfl]
    cases substLinear src dst subs k.linear with
    | error e => rfl
    | ok r =>
      simp only
      split
      · rw [linearConstraint_opposite]
        generalize dst.linearConstraint _ _ _ _ = a
        obtain ⟨a, p'⟩ := a
        cases a with
        | error e => rfl
        | ok _ => exact ih p' f
      · exact ih dst _

theorem substQuads_opposite (src : QP) (subs : Subs) (ks : List QuadCst) (dst : QP) (f : Bool) :
    substQuads src.opposite subs ks dst.opposite f =
      (substQuads src subs ks dst f).map fun r => (r.1.opposite, r.2) := by
  induction ks generalizing dst f with
  | nil => rfl
  | cons k ks ih =>
    simp only [substQuads]
    rw [show substLinear src.opposite dst.opposite subs k.linear = substLinear src dst subs k.linear from rfl,
      show substQuadratic src.opposite dst.opposite subs k.quadratic = substQuadratic src dst subs k.quadratic from rfl,
      show dst.opposite.numVars = dst.numVars from rfl, show dst.opposite.lins = dst.lins from rfl]
    cases substLinear src dst subs k.linear with
    | error e => rfl
    | ok r =>
      simp only
      cases substQuadratic src dst subs k.quadratic with
      | error e => rfl
      | ok t =>
        simp only
        split
        · rw [quadraticConstraint_opposite]
          generalize dst.quadraticConstraint _ _ _ _ _ = a
          obtain ⟨a, p'⟩ := a
          cases a with
          | error e => rfl
          | ok _ => exact ih p' f
        · split
          · rw [linearConstraint_opposite]
            generalize dst.linearConstraint _ _ _ _ = a
            obtain ⟨a, p'⟩ := a
            cases a with
            | error e => rfl
            | ok _ => exact ih p' f
          · exact ih dst _

/-- Substitution in the opposite program. -/
theorem substitute_opposite (src : QP) (c : List (Key × ℚ)) (l : List (Key × Key × ℚ)) :
    src.opposite.substitute c l = (src.substitute c l).map QP.opposite := by
  unfold QP.substitute
  rw [subsDict_opposite]
  cases subsDict src c l with
  | error e => rfl
  | ok subs =>
    simp only
    rw [substVars_opposite, show src.opposite.name = src.name from rfl]
    cases substVars src subs (QP.empty src.name) with
    | error e => rfl
    | ok r =>
      simp only
      rw [substObjective_opposite]
      cases substObjective src subs r.1 with
      | error e => rfl
      | ok dst =>
        simp only [Except.map]
        rw [substLins_opposite, show src.opposite.lins = src.lins from rfl]
        cases substLins src subs src.lins dst true with
        | error e => rfl
        | ok d =>
          simp only [Except.map]
          rw [substQuads_opposite, show src.opposite.quads = src.quads from rfl]
          cases substQuads src subs src.quads d.1 true <;> rfl

theorem linGetItem_negD (n : Nat) (d : Dict Nat) (vi : Assoc String Nat) (k : Key) :
    (LinExpr.mk n (negD d)).getItem vi k = ((LinExpr.mk n d).getItem vi k).map (-·) := by
  unfold LinExpr.getItem
  simp only
  cases resolve vi n k with
  | error e => rfl
  | ok i => simp only [get_negD]; rfl

theorem quadGetItem_negD (n : Nat) (d : Dict (Nat × Nat)) (vi : Assoc String Nat) (k k' : Key) :
    (QuadExpr.mk n (negD d)).getItem vi k k' = ((QuadExpr.mk n d).getItem vi k k').map (-·) := by
  unfold QuadExpr.getItem
  simp only
  cases resolve vi n k with
  | error e => rfl
  | ok i =>
    simp only
    cases resolve vi n k' with
    | error e => rfl
    | ok j => simp only [get_negD]; rfl

theorem linSetItem_negD (n : Nat) (d : Dict Nat) (vi : Assoc String Nat) (k : Key) (v : ℚ) :
    (LinExpr.mk n (negD d)).setItem vi k (-v) =
      ((LinExpr.mk n d).setItem vi k v).map fun e => ⟨e.n, negD e.coeffs⟩ := by
  unfold LinExpr.setItem
  simp only
  cases resolve vi n k with
  | error e => rfl
  | ok i => simp only [dokSet_negD]; rfl

theorem shiftLinear_negD (n : Nat) (q : Dict (Nat × Nat)) (vi : Assoc String Nat) (i m k : Nat) (e : LinExpr) :
    shiftLinear ⟨n, negD q⟩ vi i m k ⟨e.n, negD e.coeffs⟩ =
      (shiftLinear ⟨n, q⟩ vi i m k e).map fun e => ⟨e.n, negD e.coeffs⟩ := by
  induction m generalizing k e with
  | zero => rfl
  | succ m ih =>
    obtain ⟨a, d⟩ := e
    simp only [shiftLinear]
    rw [linGetItem_negD]
    cases (LinExpr.mk a d).getItem vi (.idx k) with
    | error e => rfl
    | ok c =>
      simp only [Except.map]
      rw [quadGetItem_negD]
      cases (QuadExpr.mk n q).getItem vi (.idx i) (.idx k) with
      | error e => rfl
      | ok b =>
        simp only [Except.map]
        rw [show (if k = i then -c + 2 * -b else -c + -b) = -(if k = i then c + 2 * b else c + b) by split <;> ring,
          abs_neg]
        generalize (if k = i then c + 2 * b else c + b) = w
        rw [show (if |w| > 1 / 10 ^ 10 then -w else 0) = -(if |w| > 1 / 10 ^ 10 then w else 0) by split <;> simp,
          linSetItem_negD]
        cases (LinExpr.mk a d).setItem vi (.idx k) _ with
        | error e => rfl
        | ok l => exact ih (k + 1) l

theorem shiftProgram_opposite (p : QP) (i : Nat) :
    shiftProgram p.opposite i = (shiftProgram p i).map QP.opposite := by
  unfold shiftProgram
  simp only [objective_opposite, show p.opposite.varsIndex = p.varsIndex from rfl,
    show p.opposite.numVars = p.numVars from rfl]
  rw [linGetItem_negD]
  cases p.objective.linear.getItem p.varsIndex (.idx i) with
  | error e => rfl
  | ok c =>
    simp only [Except.map]
    rw [quadGetItem_negD]
    cases p.objective.quadratic.getItem p.varsIndex (.idx i) (.idx i) with
    | error e => rfl
    | ok d =>
      simp only [Except.map]
      rw [shiftLinear_negD]
      cases shiftLinear p.objective.quadratic p.varsIndex i p.numVars 0 p.objective.linear with
      | error e => rfl
      | ok l =>
        simp only [Except.map, QP.opposite, Objective.opposite]
        rw [show -p.objective.constant + -c + -d = -(p.objective.constant + c + d) by ring]

theorem correlation_opposite (l : List Sample) (i j : Nat) :
    correlation (l.map Sample.opposite) i j = correlation l i j := by
  simp only [correlation, List.foldl_map]
  rfl

theorem correlationSize_opposite (l : List Sample) : correlationSize (l.map Sample.opposite) = correlationSize l := by
  cases l <;> rfl

theorem strongest_opposite (l : List Sample) (n : Nat) : strongest (l.map Sample.opposite) n = strongest l n := by
  simp only [strongest, absCorrelation, correlation_opposite]

theorem reduceStep_opposite (l : List Sample) (p : QP) :
    reduceStep (l.map Sample.opposite) p.opposite =
      (reduceStep l p).map fun r => (r.1.opposite, r.2.1.opposite, r.2.2) := by
  unfold reduceStep
  rw [correlationSize_opposite]
  cases correlationSize l with
  | error e => rfl
  | ok n =>
    simp only
    rw [strongest_opposite]
    cases strongest l n with
    | error e => rfl
    | ok r =>
      obtain ⟨i, j⟩ := r
      simp only [show p.opposite.vars = p.vars from rfl, correlation_opposite]
      cases p.vars[i]? with
      | none => rfl
      | some vi =>
        cases p.vars[j]? with
        | none => rfl
        | some vj =>
          simp only
          split
          · rw [substitute_opposite]
            cases p.substitute [] [(.idx i, .idx j, 1)] with
            | error e => rfl
            | ok q =>
              simp only [Except.map, show q.opposite.status = q.status from rfl]
              split <;> rfl
          · rw [shiftProgram_opposite]
            cases shiftProgram p i with
            | error e => rfl
            | ok p' =>
              simp only [Except.map]
              rw [substitute_opposite]
              cases p'.substitute [] [(.idx i, .idx j, -1)] with
              | error e => rfl
              | ok q =>
                simp only [Except.map, show q.opposite.status = q.status from rfl]
                split <;> rfl

theorem reduceLoop_opposite {solver : Nat → QP → Except Err Result}
    (hs : ∀ t p, solver t p.opposite = (solver t p).map Result.opposite) (m fuel t : Nat) (p : QP) (reps : Replacements) :
    reduceLoop solver m fuel t p.opposite reps =
      (reduceLoop solver m fuel t p reps).map fun r => r.map fun r => (r.1.opposite, r.2) := by
  induction fuel generalizing t p reps with
  | zero => rfl
  | succ fuel ih =>
    simp only [reduceLoop, show p.opposite.numVars = p.numVars from rfl]
    split
    · rw [hs]
      cases solver t p with
      | error e => rfl
      | ok res =>
        simp only [Except.map, show res.opposite.samples = res.samples.map Sample.opposite from rfl]
        rw [reduceStep_opposite]
        cases reduceStep res.samples p with
        | error e => rfl
        | ok r => exact ih _ _ _
    · rfl

/-- The run of the recursive optimizer on the opposite program. -/
def RecResult.opposite (r : RecResult) : RecResult :=
  { r with result := r.result.opposite, reduced := r.reduced.opposite, reducedResult := r.reducedResult.opposite,
           callers := r.callers.opposite }

theorem recursiveSolve_opposite {solver : Nat → QP → Except Err Result} {last : QP → Except Err Result}
    (hs : ∀ t p, solver t p.opposite = (solver t p).map Result.opposite)
    (hl : ∀ p, last p.opposite = (last p).map Result.opposite) (m : Nat) (penalty : Option ℚ) (p : QP) (fuel : Nat) :
    recursiveSolve solver last m [quboConverter penalty] p.opposite fuel =
      (recursiveSolve solver last m [quboConverter penalty] p fuel).map fun r => r.map RecResult.opposite := by
  unfold recursiveSolve
  rw [show quboMsg p.opposite = quboMsg p from rfl]
  have hc : ∀ q : QP, callersProgram solver m [quboConverter penalty] q = q := fun q => by
    rw [callersProgram, if_neg (by simp)]
  rw [hc, hc]
  by_cases hm : (quboMsg p).length > 0
  · rw [if_pos hm, if_pos hm]; rfl
  · rw [if_neg hm, if_neg hm]
    simp only [convertAll, quboConverter]
    rw [toQubo_opposite]
    cases p.toQubo penalty with
    | error e => rfl
    | ok st =>
      simp only [Except.map]
      rw [interpret_opposite, show st.opposite.dst = st.dst.opposite from rfl, reduceLoop_opposite hs]
      cases reduceLoop solver m fuel 0 st.dst [] with
      | none => rfl
      | some a =>
        cases a with
        | error e => rfl
        | ok r =>
          obtain ⟨final, reps⟩ := r
          simp only [Option.map_some, Except.map]
          rw [hl]
          cases last final with
          | error e => rfl
          | ok res =>
            simp only [Except.map, show res.opposite.x = res.x from rfl]
            rw [show unroll reps final.opposite st.dst.opposite res.x = unroll reps final st.dst res.x from rfl]
            cases unroll reps final st.dst res.x with
            | error e => rfl
            | ok x =>
              simp only
              have h := interpretResult_opposite p [st.interpret] [] [] x
              simp only [List.map_nil] at h
              rw [h]
              cases interpretResult p [st.interpret] [] [] x <;> rfl

end Verif
