import Verif.Raise
import Verif.PropsGrover

/-!
# Adding a constant to the objective: ADMM, local optimizers and Grover

Helper lemmas for C109.
-/

namespace Verif

/-! ## ADMM -/

theorem turnToMinimization_raise (w : ℚ) (p : QP) :
    turnToMinimization (p.raise w) = (turnToMinimization p).map (QP.raise (p.objective.sense.value * w)) := by
  unfold turnToMinimization
  simp only [objective_raise, show (p.raise w).varsIndex = p.varsIndex from rfl,
    show (p.raise w).numVars = p.numVars from rfl]
  cases hs : p.objective.sense with
  | minimize =>
    simp only [Except.map, ObjSense.value, one_mul]
  | maximize =>
    simp only
    cases LinExpr.ofInput p.varsIndex p.numVars (.sparse p.objective.linear.negated) with
    | error e => rfl
    | ok l =>
      cases QuadExpr.ofInput p.varsIndex p.numVars (.sparse p.objective.quadratic.negated) with
      | error e => rfl
      | ok q =>
        simp only [Except.map, ObjSense.value, QP.raise, Objective.raise]
        rw [show -1 * (p.objective.constant + w) = -1 * p.objective.constant + -1 * w by ring]

/-- The representation of the raised program. -/
def AdmmRep.raise (w : ℚ) (r : AdmmRep) : AdmmRep := { r with op := r.op.raise w }

/-- The state reached for the raised program. -/
def AdmmState.raise (w : ℚ) (s : AdmmState) : AdmmState :=
  { s with costs := s.costs.map (· + w), merits := s.merits.map (· + w) }

theorem step1Objective_raise (w : ℚ) (p : QP) (l acc : List Nat) :
    step1Objective (p.raise w) l acc = step1Objective p l acc := by
  induction l generalizing acc with
  | nil => rfl
  | cons i l ih =>
    simp only [step1Objective]
    rw [show inObjective (p.raise w) i = inObjective p i from rfl]
    cases inObjective p i with
    | error e => rfl
    | ok b => exact ih _

theorem step1Constraint_raise (w : ℚ) (p : QP) (c : LinCst) (l acc : List Nat) :
    step1Constraint (p.raise w) c l acc = step1Constraint p c l acc := by
  induction l generalizing acc with
  | nil => rfl
  | cons i l ih =>
    simp only [step1Constraint]
    rw [show (p.raise w).varsIndex = p.varsIndex from rfl]
    cases c.linear.getItem p.varsIndex (.idx i) with
    | error e => rfl
    | ok b => exact ih _

theorem step1Constraints_raise (w : ℚ) (p : QP) (rest : List Nat) (cs : List LinCst) (acc : List Nat) :
    step1Constraints (p.raise w) rest cs acc = step1Constraints p rest cs acc := by
  induction cs generalizing acc with
  | nil => rfl
  | cons c cs ih =>
    simp only [step1Constraints, step1Constraint_raise]
    cases step1Constraint p c rest acc with
    | error e => rfl
    | ok b => exact ih _

theorem step1Absolute_raise (w : ℚ) (p : QP) : step1Absolute (p.raise w) = step1Absolute p := by
  unfold step1Absolute
  simp only [step1Objective_raise, step1Constraints_raise]
  rfl

theorem admmRep_raise (w : ℚ) (p : QP) : admmRep (p.raise w) = (admmRep p).map (AdmmRep.raise w) := by
  unfold admmRep
  rw [step1Absolute_raise]
  cases step1Absolute p with
  | error e => rfl
  | ok step1 =>
    simp only [objective_raise, show variableIndices .binary (p.raise w) = variableIndices .binary p from rfl,
      show binaryEqualities (p.raise w) = binaryEqualities p from rfl]
    cases relativeIndices (variableIndices .binary p) 0 step1 with
    | error e => rfl
    | ok rel =>
      cases getQ p.objective.quadratic step1 with
      | error e => rfl
      | ok q0 =>
        cases takeIdx p.objective.linear.toArray step1 with
        | error e => rfl
        | ok c0 => cases getA0B0 step1 (binaryEqualities p) <;> rfl

theorem step2Vars_raise (w : ℚ) (s : AdmmState) (k : Nat) (is : List Nat) (op : QP) :
    step2Vars s k is (op.raise w) = (step2Vars s k is op).map (QP.raise w) := by
  induction is generalizing k op with
  | nil => rfl
  | cons i is ih =>
    simp only [step2Vars, objective_raise, show (op.raise w).vars = op.vars from rfl,
      show (op.raise w).varsIndex = op.varsIndex from rfl]
    cases op.vars[i]? with
    | none => rfl
    | some v =>
      simp only
      cases relaxVar v with
      | error e => rfl
      | ok v =>
        simp only
        cases op.objective.quadratic.setItem op.varsIndex (.idx i) (.idx i) (s.rho / 2) with
        | error e => rfl
        | ok q =>
          simp only
          cases op.objective.linear.setItem op.varsIndex (.idx i) (-1 * pt s.lam k - s.rho * (pt s.x0 k - pt s.y k)) with
          | error e => rfl
          | ok l =>
            exact ih (k + 1)
              { op with vars := op.vars.set i v, objective := { op.objective with linear := l, quadratic := q } }

theorem removeLinear_raise (w : ℚ) (k : Key) (op : QP) :
    (op.raise w).removeLinear k = Res.raise w (op.removeLinear k) := by
  have h : ∀ i : Except Err Nat, (match i with
      | .error e => (.error e, op.raise w)
      | .ok i => if i < op.lins.length then
          (.ok (), { op.raise w with lins := op.lins.eraseIdx i,
                                     linsIndex := indexOfNames ((op.lins.eraseIdx i).map LinCst.name) })
        else (.error .indexError, op.raise w) : Res Unit) = Res.raise w (match i with
      | .error e => (.error e, op)
      | .ok i => if i < op.lins.length then
          (.ok (), { op with lins := op.lins.eraseIdx i,
                             linsIndex := indexOfNames ((op.lins.eraseIdx i).map LinCst.name) })
        else (.error .indexError, op)) := by
    intro i
    cases i with
    | error e => rfl
    | ok i =>
      simp only
      split <;> rfl
  exact h _

theorem removeConstraints_raise (w : ℚ) (cs : List LinCst) (op : QP) :
    removeConstraints cs (op.raise w) = (removeConstraints cs op).map (QP.raise w) := by
  induction cs generalizing op with
  | nil => rfl
  | cons c cs ih =>
    simp only [removeConstraints]
    rw [removeLinear_raise]
    generalize op.removeLinear (.name c.name) = a
    obtain ⟨a, op'⟩ := a
    cases a with
    | error e => rfl
    | ok u => exact ih op'

theorem step2Problem_raise (w v : ℚ) (r : AdmmRep) (s : AdmmState) :
    step2Problem (r.raise w) (s.raise v) = (step2Problem r s).map (QP.raise w) := by
  unfold step2Problem
  rw [show step2Vars (s.raise v) 0 (r.raise w).binIdx (r.raise w).op = step2Vars s 0 r.binIdx (r.op.raise w) from ?_,
    step2Vars_raise]
  · cases step2Vars s 0 r.binIdx r.op with
    | error e => rfl
    | ok op => exact removeConstraints_raise w r.binEqs op
  · show step2Vars (s.raise v) 0 r.binIdx (r.op.raise w) = _
    generalize r.op.raise w = op
    generalize r.binIdx = is
    generalize (0 : Nat) = k
    induction is generalizing k op with
    | nil => rfl
    | cons i is ih => simp only [step2Vars, ih]; rfl

theorem checkedSolve_raise {w : ℚ} {cont : Solver} (hc : ∀ t p, cont t (p.raise w) = cont t p) (t : Nat) (p : QP) :
    checkedSolve cont t (p.raise w) = checkedSolve cont t p := by
  unfold checkedSolve
  rw [hc]
  rfl

theorem admmBlocks_raise {w v : ℚ} (qubo : Solver) {cont : Solver} (hc : ∀ t p, cont t (p.raise w) = cont t p)
    (prm : AdmmParams) (r : AdmmRep) (t : Nat) (s : AdmmState) :
    admmBlocks qubo cont prm (r.raise w) t (s.raise v) = (admmBlocks qubo cont prm r t s).map (AdmmState.raise v) := by
  unfold admmBlocks
  rw [show updateX0 qubo t prm (r.raise w) (s.raise v) = updateX0 qubo t prm r s from rfl]
  cases updateX0 qubo t prm r s with
  | error e => rfl
  | ok x0 =>
    simp only
    have h1 : ∀ s : AdmmState, updateX1 cont (2 * t + 1) (r.raise w) (s.raise v) = updateX1 cont (2 * t + 1) r s := by
      intro s
      unfold updateX1
      rw [step2Problem_raise]
      cases step2Problem r s with
      | error e => rfl
      | ok op =>
        simp only [Except.map]
        rw [checkedSolve_raise hc]
        rfl
    rw [show ({ s.raise v with x0 := x0 } : AdmmState) = ({ s with x0 := x0 } : AdmmState).raise v from rfl, h1]
    cases updateX1 cont (2 * t + 1) r { s with x0 := x0 } with
    | error e => rfl
    | ok uz =>
      simp only
      have h2 : ∀ a : AdmmState, updateY cont (2 * t + 2) prm (r.raise w) (a.raise v) = updateY cont (2 * t + 2) prm r a :=
        fun _ => rfl
      have h3 := h2 { s with x0 := x0, u := uz.1, z := uz.2 }
      simp only [AdmmState.raise] at h3 ⊢
      rw [h3]
      cases updateY cont (2 * t + 2) prm r { s with x0 := x0, u := uz.1, z := uz.2 } <;> rfl

theorem admmRecord_raise (w : ℚ) (norm : List ℚ → ℚ) (prm : AdmmParams) (r : AdmmRep) (t : Nat) (s : AdmmState) :
    admmRecord norm prm (r.raise w) t (s.raise w) =
      (admmRecord norm prm r t s).map fun a => (a.1.raise w, a.2) := by
  unfold admmRecord
  simp only [show (r.raise w).binIdx = r.binIdx from rfl, show (r.raise w).contIdx = r.contIdx from rfl,
    show (s.raise w).x0 = s.x0 from rfl, show (s.raise w).u = s.u from rfl]
  cases revertIndexes r.binIdx r.contIdx s.x0 s.u with
  | error e => rfl
  | ok x =>
    simp only
    rw [show (r.raise w).op.objective = r.op.objective.raise w from rfl, evaluate_raise,
      show constraintResidual (r.raise w) x = constraintResidual r x from rfl]
    cases r.op.objective.evaluate x with
    | error e => rfl
    | ok cost =>
      simp only [Except.map]
      cases constraintResidual r x with
      | error e => rfl
      | ok cr =>
        simp only
        have h2 : ∀ a : AdmmState, solutionResiduals norm r.binIdx.length (a.raise w) t =
            solutionResiduals norm r.binIdx.length a t := fun _ => rfl
        have h3 := h2 { s with lam := updateLambda r.binIdx.length s }
        rw [show updateLambda r.binIdx.length (s.raise w) = updateLambda r.binIdx.length s from rfl]
        simp only [AdmmState.raise] at h3 ⊢
        rw [h3]
        cases solutionResiduals norm r.binIdx.length { s with lam := updateLambda r.binIdx.length s } t with
        | error e => rfl
        | ok pd =>
          simp only [List.map_append, List.map_cons, List.map_nil, merit,
            show cost + w + prm.muMerit * cr = cost + prm.muMerit * cr + w by ring]

theorem admmLoop_raise {w : ℚ} (qubo : Solver) {cont : Solver} (hc : ∀ t p, cont t (p.raise w) = cont t p)
    (norm : List ℚ → ℚ) (clock : Nat → Bool) (prm : AdmmParams) (r : AdmmRep) (k t : Nat) (res : ℚ) (s : AdmmState) :
    admmLoop qubo cont norm clock prm (r.raise w) k t res (s.raise w) =
      (admmLoop qubo cont norm clock prm r k t res s).map (AdmmState.raise w) := by
  induction k generalizing t res s with
  | zero => rfl
  | succ k ih =>
    simp only [admmLoop]
    split
    · rw [admmBlocks_raise qubo hc]
      cases admmBlocks qubo cont prm r t s with
      | error e => rfl
      | ok s =>
        simp only [Except.map]
        rw [admmRecord_raise]
        cases admmRecord norm prm r t s with
        | error e => rfl
        | ok a => exact ih _ _ _
    · rfl

theorem foldl_min_add (w a : ℚ) (l : List ℚ) : (l.map (· + w)).foldl min (a + w) = l.foldl min a + w := by
  induction l generalizing a with
  | nil => rfl
  | cons b l ih =>
    simp only [List.map_cons, List.foldl_cons]
    rw [min_add_add_right, ih]

theorem idxOf_map_add (w a : ℚ) (l : List ℚ) : (l.map (· + w)).idxOf (a + w) = l.idxOf a := by
  induction l with
  | nil => rfl
  | cons b l ih =>
    simp only [List.map_cons, List.idxOf_cons, ih]
    have hb : (b + w == a + w) = (b == a) := by
      by_cases h : b = a
      · simp [h]
      · rw [beq_eq_false_iff_ne.mpr h, beq_eq_false_iff_ne.mpr (fun h' => h (by linarith))]
    rw [hb]

theorem minIndex_raise (w : ℚ) (l : List ℚ) : minIndex (l.map (· + w)) = minIndex l := by
  cases l with
  | nil => rfl
  | cons a l =>
    simp only [minIndex, List.map_cons]
    rw [foldl_min_add]
    have := idxOf_map_add w (l.foldl min a) (a :: l)
    simp only [List.map_cons] at this
    rw [this]

theorem bestMerit_raise (w : ℚ) (s : AdmmState) :
    bestMerit (s.raise w) = (bestMerit s).map fun b => (b.1, b.2.1, b.2.2 + w) := by
  unfold bestMerit
  simp only [AdmmState.raise, minIndex_raise]
  cases minIndex s.merits with
  | error e => rfl
  | ok k =>
    simp only [List.getElem?_map]
    cases s.x0Saved[k]? <;> cases s.uSaved[k]? <;> cases s.costs[k]? <;> rfl

theorem admmWarmStart_raise {w : ℚ} {cont : Solver} (hc : ∀ t p, cont t (p.raise w) = cont t p) (p : QP)
    (s : AdmmState) (hs : s.raise w = s) :
    admmWarmStart cont (p.raise w) s = (admmWarmStart cont p s).map (AdmmState.raise w) := by
  unfold admmWarmStart
  have h := checkedSolve_raise hc 0 { p with vars := p.vars.map fun v => { v with vartype := .continuous } }
  rw [show checkedSolve cont 0 { p.raise w with vars := (p.raise w).vars.map fun v =>
    { v with vartype := .continuous } } = _ from h]
  cases checkedSolve cont 0 { p with vars := p.vars.map fun v => { v with vartype := .continuous } } with
  | error e => rfl
  | ok x =>
    simp only [show variableIndices .binary (p.raise w) = variableIndices .binary p from rfl,
      show variableIndices .continuous (p.raise w) = variableIndices .continuous p from rfl]
    cases takeIdx x (variableIndices .binary p) with
    | error e => rfl
    | ok x0 =>
      cases takeIdx x (variableIndices .continuous p) with
      | error e => rfl
      | ok u =>
        simp only [Except.map]
        conv_lhs => rw [← hs]
        rfl

theorem intToBin_sense {p : QP} {c : I2B} (h : p.intToBin = .ok c) : c.dst.objective.sense = p.objective.sense := by
  unfold QP.intToBin at h
  split at h
  · cases h1 : i2bVars p.vars [] (QP.empty p.name) with
    | error e => simp [h1] at h
    | ok r =>
      simp only [h1] at h
      cases h2 : i2bObjective p r.1 r.2 with
      | error e => simp [h2] at h
      | ok d =>
        simp only [h2] at h
        cases h3 : i2bLins p r.1 p.lins d with
        | error e => simp [h3] at h
        | ok d2 =>
          simp only [h3] at h
          cases h4 : i2bQuads p r.1 p.quads d2 with
          | error e => simp [h4] at h
          | ok d3 =>
            simp only [h4, Except.ok.injEq] at h
            subst h
            show d3.objective.sense = _
            rw [i2bQuads_objective h4, i2bLins_objective h3]
            unfold i2bObjective at h2
            cases h5 : i2bLin p r.1 (p.objective.linear.toDictNames p.vars) [] 0 with
            | error e => simp [h5] at h2
            | ok a =>
              cases h6 : i2bQuad p r.1 (p.objective.quadratic.toDictNames p.vars) [] [] 0 with
              | error e => simp [h5, h6] at h2
              | ok b =>
                simp only [h5, h6] at h2
                unfold QP.setObjective at h2
                cases h7 : LinExpr.ofInput r.2.varsIndex r.2.numVars (linNames (dokPlus a.1 b.2.1)) with
                | error e => simp [h7] at h2
                | ok l =>
                  cases h8 : QuadExpr.ofInput r.2.varsIndex r.2.numVars (quadNames b.1) with
                  | error e => simp [h7, h8] at h2
                  | ok q =>
                    simp only [h7, h8, Except.ok.injEq] at h2
                    subst h2
                    rfl
  · simp only [Except.ok.injEq] at h
    subst h
    rfl

theorem admmSolve_raise (w : ℚ) (qubo cont : Solver) (norm : List ℚ → ℚ) (clock : Nat → Bool) (prm : AdmmParams) (p : QP)
    (hc : ∀ t q, cont t (q.raise (p.objective.sense.value * w)) = cont t q) :
    admmSolve qubo cont norm clock prm (p.raise w) =
      (admmSolve qubo cont norm clock prm p).map fun r =>
        ⟨r.result.raise w, r.rep.raise (p.objective.sense.value * w), r.state.raise (p.objective.sense.value * w), r.point⟩ := by
  unfold admmSolve
  rw [show admmCompatible (p.raise w) = admmCompatible p from rfl, intToBin_raise]
  cases admmCompatible p with
  | error e => rfl
  | ok b =>
    cases b with
    | false => rfl
    | true =>
      simp only
      cases hi : p.intToBin with
      | error e => rfl
      | ok conv =>
        simp only [Except.map]
        rw [turnToMinimization_raise, intToBin_sense hi]
        generalize p.objective.sense.value * w = v at hc
        cases turnToMinimization conv.dst with
        | error e => rfl
        | ok q =>
          simp only [Except.map]
          have hw : (if prm.warmStart = true then admmWarmStart cont (q.raise v) (admmInit prm (q.raise v))
              else Except.ok (admmInit prm (q.raise v))) =
              (if prm.warmStart = true then admmWarmStart cont q (admmInit prm q)
              else Except.ok (admmInit prm q)).map (AdmmState.raise v) := by
            rw [show admmInit prm (q.raise v) = admmInit prm q from rfl]
            split
            · exact admmWarmStart_raise hc q _ rfl
            · rfl
          rw [hw]
          generalize (if prm.warmStart = true then admmWarmStart cont q (admmInit prm q)
            else Except.ok (admmInit prm q)) = a
          cases a with
          | error e => rfl
          | ok s =>
            simp only [Except.map]
            rw [admmRep_raise]
            cases admmRep q with
            | error e => rfl
            | ok r =>
              simp only [Except.map]
              rw [admmLoop_raise qubo hc]
              cases admmLoop qubo cont norm clock prm r prm.maxiter 0 100 s with
              | error e => rfl
              | ok s =>
                simp only [Except.map]
                rw [bestMerit_raise]
                cases bestMerit s with
                | error e => rfl
                | ok b =>
                  simp only [Except.map, show (r.raise v).binIdx = r.binIdx from rfl,
                    show (r.raise v).contIdx = r.contIdx from rfl]
                  cases revertIndexes r.binIdx r.contIdx b.1 b.2.1 with
                  | error e => rfl
                  | ok x =>
                    simp only
                    have h := interpretResult_raise w p [conv.interpret] [] [] x
                    simp only [List.map_nil] at h
                    rw [show (I2B.mk (conv.src.raise w) (conv.dst.raise w) conv.conv).interpret = conv.interpret from rfl, h]
                    cases interpretResult p [conv.interpret] [] [] x <;> rfl

/-! ## Local optimizers -/

theorem solverObjective_raise (w : ℚ) (p : QP) (x : List ℚ) :
    solverObjective (p.raise w) x = (solverObjective p x).map (· + p.objective.sense.value * w) := by
  unfold solverObjective
  rw [show (p.raise w).objective = p.objective.raise w from rfl, evaluate_raise]
  cases p.objective.evaluate x with
  | error e => rfl
  | ok v => simp only [Except.map, Objective.raise, mul_add]

theorem trialLoop_some {clip : ℚ} {u : Nat → Nat → ℚ} {minimize : Nat → List ℚ → Except Err (List ℚ)} {p : QP} {k t : Nat}
    {f : ℚ} {x : List ℚ} {r : ℚ × Option (List ℚ)} (h : trialLoop clip u minimize p k t f (some x) = .ok r) :
    ∃ y, r.2 = some y := by
  induction k generalizing t f x with
  | zero =>
    simp only [trialLoop, Except.ok.injEq] at h
    subst h
    exact ⟨x, rfl⟩
  | succ k ih =>
    simp only [trialLoop] at h
    split at h
    · simp at h
    · split at h
      · simp at h
      · split at h
        · simp at h
        · split at h
          · exact ih h
          · exact ih h

/-- Minimization: as long as no value reaches the initial bound, the trials are accepted in the same way. -/
theorem trialLoop_raise {w : ℚ} {clip : ℚ} {u : Nat → Nat → ℚ} {minimize : Nat → List ℚ → Except Err (List ℚ)} {p : QP}
    (hs : p.objective.sense = .minimize)
    (hb : ∀ t x0 x v, minimize t x0 = .ok x → p.objective.evaluate x = .ok v → v < INFINITY ∧ v + w < INFINITY) (k t : Nat) :
    (trialLoop clip u minimize (p.raise w) k t INFINITY none =
      (trialLoop clip u minimize p k t INFINITY none).map
        fun r => match r.2 with | none => r | some x => (r.1 + w, some x)) ∧
    ∀ f x, trialLoop clip u minimize (p.raise w) k t (f + w) (some x) =
      (trialLoop clip u minimize p k t f (some x)).map fun r => (r.1 + w, r.2) := by
  induction k generalizing t with
  | zero => exact ⟨rfl, fun _ _ => rfl⟩
  | succ k ih =>
    simp only [trialLoop, show initialGuess clip u (p.raise w) t = initialGuess clip u p t from rfl, objective_raise, hs,
      ObjSense.value, mul_one]
    cases initialGuess clip u p t with
    | error e => exact ⟨rfl, fun _ _ => rfl⟩
    | ok x0 =>
      simp only
      cases hx : minimize t x0 with
      | error e => exact ⟨rfl, fun _ _ => rfl⟩
      | ok x =>
        simp only
        have he := evaluate_raise w p.objective x
        simp only [Objective.raise, hs] at he
        rw [he]
        cases hv : p.objective.evaluate x with
        | error e => exact ⟨rfl, fun _ _ => rfl⟩
        | ok v =>
          obtain ⟨b1, b2⟩ := hb t x0 x v hx hv
          simp only [Except.map]
          refine ⟨?_, fun f y => ?_⟩
          · rw [if_pos b1, if_pos b2, (ih (t + 1)).2 v x]
            cases hl : trialLoop clip u minimize p k (t + 1) v (some x) with
            | error e => rfl
            | ok r =>
              obtain ⟨y, hy⟩ := trialLoop_some hl
              simp only [Except.map, hy]
          · simp only [add_lt_add_iff_right]
            split
            · exact (ih (t + 1)).2 v x
            · exact (ih (t + 1)).2 f y

theorem multiStart_raise {w : ℚ} {clip : ℚ} {u : Nat → Nat → ℚ} {minimize : Nat → List ℚ → Except Err (List ℚ)} {p : QP}
    (hs : p.objective.sense = .minimize)
    (hb : ∀ t x0 x v, minimize t x0 = .ok x → p.objective.evaluate x = .ok v → v < INFINITY ∧ v + w < INFINITY)
    (trials : Nat) :
    multiStartSolve trials clip u minimize (p.raise w) =
      (multiStartSolve trials clip u minimize p).map (Result.raise w) := by
  unfold multiStartSolve
  rw [(trialLoop_raise hs hb trials 0).1]
  cases trialLoop clip u minimize p trials 0 INFINITY none with
  | error e => rfl
  | ok r =>
    obtain ⟨f, y⟩ := r
    cases y with
    | none => rfl
    | some x =>
      simp only [Except.map]
      rw [feasibilityStatus_raise]
      cases feasibilityStatus p x with
      | error e => rfl
      | ok st =>
        simp only [Result.mk?, show (p.raise w).vars = p.vars from rfl]
        split <;> rfl

/-! ## Grover -/

theorem groverObjective_raise (w : ℚ) (o : Objective) :
    groverObjective (o.raise w) = (groverObjective o).raise (o.sense.value * w) := by
  unfold groverObjective Objective.raise
  cases hs : o.sense with
  | minimize => simp [ObjSense.value, hs]
  | maximize =>
    simp only [ObjSense.value]
    congr 1
    ring

/-- The states of two searches that differ by a constant: the thresholds differ once something has been measured. -/
structure GroverState.Raised (w : ℚ) (s s' : GroverState) : Prop where
  key : s'.optKey = s.optKey
  value : s'.optValue = s.optValue.map (· + w)
  keys : s'.keysMeasured = s.keysMeasured
  rot : s'.rotations = s.rotations
  it : s'.iteration = s.iteration
  loops : s'.loops = s.loops

/-- One iteration of the search with faithful measurements. -/
theorem groverLoop_step {measure : Nat → Objective → Outcome} {rot : Nat → Nat} {sqrt : ℚ → ℚ} {o : Objective}
    {p : ℚ → QP} {q : QP} {convs : List Interp} {nKey nValue nIt maxRot : Nat} (hk : 0 < nKey) (hv : 0 < nValue)
    {key : Nat → Nat} (hm : Faithful nKey nValue key measure) (hf : FitsRegister nKey nValue key o) {fuel : Nat}
    {s r : GroverState} (hi : GroverInv nKey key o s)
    (h : groverLoop measure rot sqrt o p q convs nKey nValue nIt maxRot (fuel + 1) s = some (.ok r)) :
    (improves (o.val (pt (keyPt nKey (key s.iteration)))) s.optValue = true ∧ ∃ raw samples,
      GroverInv nKey key o ⟨key s.iteration, some (o.val (pt (keyPt nKey (key s.iteration)))),
        o.val (pt (keyPt nKey (key s.iteration))), s.keysMeasured, s.rotations + rot s.iteration, s.iteration + 1, 0, raw,
        samples⟩ ∧
      groverLoop measure rot sqrt o p q convs nKey nValue nIt maxRot fuel
        ⟨key s.iteration, some (o.val (pt (keyPt nKey (key s.iteration)))),
        o.val (pt (keyPt nKey (key s.iteration))), s.keysMeasured, s.rotations + rot s.iteration, s.iteration + 1, 0, raw,
        samples⟩ = some (.ok r)) ∨
    (¬ improves (o.val (pt (keyPt nKey (key s.iteration)))) s.optValue = true ∧
      (s.loops + 1 ≥ nIt ∨ (if key s.iteration ∈ s.keysMeasured then s.keysMeasured
        else s.keysMeasured ++ [key s.iteration]).length = 2 ^ nKey ∨ s.rotations + rot s.iteration ≥ maxRot) ∧
      r = { s with keysMeasured := (if key s.iteration ∈ s.keysMeasured then s.keysMeasured
                     else s.keysMeasured ++ [key s.iteration])
                   rotations := s.rotations + rot s.iteration
                   iteration := s.iteration + 1
                   loops := s.loops + 1 }) ∨
    (¬ improves (o.val (pt (keyPt nKey (key s.iteration)))) s.optValue = true ∧
      ¬ (s.loops + 1 ≥ nIt ∨ (if key s.iteration ∈ s.keysMeasured then s.keysMeasured
        else s.keysMeasured ++ [key s.iteration]).length = 2 ^ nKey ∨ s.rotations + rot s.iteration ≥ maxRot) ∧
      GroverInv nKey key o
        { s with keysMeasured := (if key s.iteration ∈ s.keysMeasured then s.keysMeasured
                   else s.keysMeasured ++ [key s.iteration])
                 rotations := s.rotations + rot s.iteration
                 iteration := s.iteration + 1
                 loops := s.loops + 1 } ∧
      groverLoop measure rot sqrt o p q convs nKey nValue nIt maxRot fuel
        { s with keysMeasured := (if key s.iteration ∈ s.keysMeasured then s.keysMeasured
                   else s.keysMeasured ++ [key s.iteration])
                 rotations := s.rotations + rot s.iteration
                 iteration := s.iteration + 1
                 loops := s.loops + 1 } = some (.ok r)) := by
  obtain ⟨z, h1, h2, h3⟩ := outcome_read hk hv hm hf hi
  simp only [groverLoop, h1, h2, h3] at h
  by_cases himp : improves (o.val (pt (keyPt nKey (key s.iteration)))) s.optValue = true
  · rw [if_pos himp] at h
    left
    split at h
    · simp at h
    · split at h
      · simp at h
      · refine ⟨himp, _, _, ⟨by simp, ?_⟩, h⟩
        intro v hv
        simp only [Option.some.injEq] at hv
        subst hv
        refine ⟨rfl, ⟨s.iteration, by simp, rfl, rfl⟩, ?_⟩
        intro i hi'
        simp only at hi'
        rcases Nat.lt_succ_iff_lt_or_eq.mp hi' with hlt | rfl
        · cases hopt : s.optValue with
          | none => rw [(hi.start hopt).2] at hlt; omega
          | some w =>
            rw [hopt] at himp
            simp only [improves, decide_eq_true_eq] at himp
            exact himp.le.trans ((hi.best w hopt).2.2 i hlt)
        · exact le_refl _
  · rw [if_neg himp] at h
    right
    cases hopt : s.optValue with
    | none => simp [hopt, improves] at himp
    | some w =>
      have himp' := himp
      rw [hopt] at himp
      simp only [improves, decide_eq_true_eq, not_lt] at himp
      have hb := hi.best w hopt
      have hnew : ∀ (keys : List Nat) (rots loops : Nat), GroverInv nKey key o
          { s with keysMeasured := keys, rotations := rots, iteration := s.iteration + 1, loops := loops } := by
        intro keys rots loops
        refine ⟨by simp [hopt], ?_⟩
        intro v hv
        simp only [hopt, Option.some.injEq] at hv
        subst hv
        obtain ⟨a, ⟨i, hi1, hi2, hi3⟩, c⟩ := hb
        refine ⟨a, ⟨i, Nat.lt_succ_of_lt hi1, hi2, hi3⟩, ?_⟩
        intro j hj
        simp only at hj
        rcases Nat.lt_succ_iff_lt_or_eq.mp hj with hlt | rfl
        · exact c j hlt
        · exact himp
      rw [← hopt]
      by_cases hstop : s.loops + 1 ≥ nIt ∨ (if key s.iteration ∈ s.keysMeasured then s.keysMeasured
          else s.keysMeasured ++ [key s.iteration]).length = 2 ^ nKey ∨ s.rotations + rot s.iteration ≥ maxRot
      · rw [if_pos hstop] at h
        simp only [Option.some.injEq, Except.ok.injEq] at h
        exact .inl ⟨himp', hstop, h.symm⟩
      · rw [if_neg hstop] at h
        exact .inr ⟨himp', hstop, hnew _ _ _, h⟩

theorem groverLoop_raise {w : ℚ} {measure : Nat → Objective → Outcome} {rot : Nat → Nat} {sqrt : ℚ → ℚ} {o : Objective}
    {p p' : ℚ → QP} {q q' : QP} {fs fs' : List Interp} {nKey nValue nIt maxRot : Nat} (hk : 0 < nKey) (hv : 0 < nValue)
    {key : Nat → Nat} (hm : Faithful nKey nValue key measure) (hf : FitsRegister nKey nValue key o)
    (hf' : FitsRegister nKey nValue key (o.raise w)) {fuel : Nat} {s s' r r' : GroverState} (hi : GroverInv nKey key o s)
    (hi' : GroverInv nKey key (o.raise w) s') (hst : s.Raised w s')
    (h : groverLoop measure rot sqrt o p q fs nKey nValue nIt maxRot fuel s = some (.ok r))
    (h' : groverLoop measure rot sqrt (o.raise w) p' q' fs' nKey nValue nIt maxRot fuel s' = some (.ok r')) :
    r.Raised w r' := by
  induction fuel generalizing s s' with
  | zero => simp [groverLoop] at h
  | succ fuel ih =>
    have hval : (o.raise w).val (pt (keyPt nKey (key s.iteration))) = o.val (pt (keyPt nKey (key s.iteration))) + w := by
      simp only [Objective.raise, Objective.val]
      ring
    have himp : improves (o.val (pt (keyPt nKey (key s.iteration))) + w) s'.optValue =
        improves (o.val (pt (keyPt nKey (key s.iteration)))) s.optValue := by
      rw [hst.value]
      cases s.optValue with
      | none => rfl
      | some v => simp [improves]
    have hs1 := groverLoop_step hk hv hm hf hi h
    have hs2 := groverLoop_step hk hv hm hf' hi' h'
    simp only [hval, himp, hst.it, hst.keys, hst.rot, hst.loops] at hs1 hs2
    rcases hs1 with ⟨a1, raw, samples, a2, a3⟩ | ⟨a1, a2, a3⟩ | ⟨a1, a2, a3, a4⟩
    · rcases hs2 with ⟨b1, raw', samples', b2, b3⟩ | ⟨b1, b2, b3⟩ | ⟨b1, b2, b3, b4⟩
      · exact ih a2 b2 ⟨rfl, rfl, rfl, rfl, rfl, rfl⟩ a3 b3
      · exact absurd a1 b1
      · exact absurd a1 b1
    · rcases hs2 with ⟨b1, raw', samples', b2, b3⟩ | ⟨b1, b2, b3⟩ | ⟨b1, b2, b3, b4⟩
      · exact absurd b1 a1
      · subst a3
        subst b3
        exact ⟨hst.key, hst.value, rfl, rfl, rfl, rfl⟩
      · exact absurd a2 b2
    · rcases hs2 with ⟨b1, raw', samples', b2, b3⟩ | ⟨b1, b2, b3⟩ | ⟨b1, b2, b3, b4⟩
      · exact absurd b1 a1
      · exact absurd b2 a2
      · exact ih a3 b3 ⟨hst.key, hst.value, rfl, rfl, rfl, rfl⟩ a4 b4

theorem interpretResult_raise_any {w : ℚ} {p : QP} {fs : List Interp} {s r s' r' : List Sample} {x : List ℚ}
    {res res' : Result} (h : interpretResult p fs s r x = .ok res) (h' : interpretResult (p.raise w) fs s' r' x = .ok res') :
    res'.x = res.x ∧ res'.fval = res.fval.map (· + w) ∧ res'.status = res.status := by
  unfold interpretResult at h h'
  cases h1 : interpretAll fs x with
  | error e => simp [h1] at h
  | ok y =>
    simp only [h1] at h h'
    rw [show (p.raise w).objective = p.objective.raise w from rfl, evaluate_raise, feasibilityStatus_raise] at h'
    cases h2 : p.objective.evaluate y with
    | error e => simp [h2] at h
    | ok v =>
      simp only [h2, Except.map] at h h'
      cases h3 : feasibilityStatus p y with
      | error e => simp [h3] at h
      | ok st =>
        simp only [h3, Result.mk?, show (p.raise w).vars = p.vars from rfl] at h h'
        split at h
        · simp at h
        · rename_i hl
          rw [if_neg hl] at h'
          simp only [Except.ok.injEq] at h h'
          subst h
          subst h'
          exact ⟨rfl, rfl, rfl⟩

end Verif
