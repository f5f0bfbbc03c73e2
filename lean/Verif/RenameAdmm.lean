import Verif.RenameSolve
import Verif.Admm
import Verif.AdmmTrace

/-!
# ADMM under renaming
-/

namespace Verif

variable {ρ σ : String → String}

/-- The representation of a program with other names. -/
def AdmmRep.rename (ρ σ : String → String) (r : AdmmRep) : AdmmRep :=
  { r with op := r.op.rename ρ σ, eqs := r.eqs.map (Cst.rename σ), ineqs := r.ineqs.map (Cst.rename σ),
           binEqs := r.binEqs.map (LinCst.rename σ) }

theorem turnToMinimization_rename (p : QP) :
    turnToMinimization (p.rename ρ σ) = (turnToMinimization p).map (QP.rename ρ σ) := by
  unfold turnToMinimization
  rw [show (p.rename ρ σ).objective = p.objective from rfl]
  cases p.objective.sense <;> rfl

theorem variableIndices_rename (t : VarType) (p : QP) : variableIndices t (p.rename ρ σ) = variableIndices t p := by
  unfold variableIndices
  rw [show (p.rename ρ σ).vars = p.vars.map (Variable.rename ρ) from rfl, List.zipIdx_map, List.filter_map, List.map_map]
  rfl

theorem admmCompatible_rename (p : QP) : admmCompatible (p.rename ρ σ) = admmCompatible p := by
  unfold admmCompatible
  simp only [variableIndices_rename, show (p.rename ρ σ).objective = p.objective from rfl]

theorem binaryEqualities_rename (p : QP) : binaryEqualities (p.rename ρ σ) = (binaryEqualities p).map (LinCst.rename σ) := by
  unfold binaryEqualities
  rw [show (p.rename ρ σ).lins = p.lins.map (LinCst.rename σ) from rfl, List.filter_map]
  simp only [variableIndices_rename]
  rfl

theorem equalities_rename (p : QP) : equalities (p.rename ρ σ) = (equalities p).map (Cst.rename σ) := by
  unfold equalities
  rw [show (p.rename ρ σ).lins = p.lins.map (LinCst.rename σ) from rfl,
    show (p.rename ρ σ).quads = p.quads.map (QuadCst.rename σ) from rfl, List.filter_map, List.filter_map, List.map_append,
    List.map_map, List.map_map, List.map_map, List.map_map]
  rfl

theorem inequalities_rename (p : QP) : inequalities (p.rename ρ σ) = (inequalities p).map (Cst.rename σ) := by
  unfold inequalities
  rw [show (p.rename ρ σ).lins = p.lins.map (LinCst.rename σ) from rfl,
    show (p.rename ρ σ).quads = p.quads.map (QuadCst.rename σ) from rfl, List.filter_map, List.filter_map, List.map_append,
    List.map_map, List.map_map, List.map_map, List.map_map]
  rfl

theorem step1Objective_rename (p : QP) (is acc : List Nat) : step1Objective (p.rename ρ σ) is acc = step1Objective p is acc := by
  induction is generalizing acc with
  | nil => rfl
  | cons i is ih =>
    simp only [step1Objective]
    rw [show inObjective (p.rename ρ σ) i = inObjective p i from rfl]
    cases inObjective p i with
    | error e => rfl
    | ok b => exact ih _

theorem step1Constraint_rename (p : QP) (c : LinCst) (is acc : List Nat) :
    step1Constraint (p.rename ρ σ) (c.rename σ) is acc = step1Constraint p c is acc := by
  induction is generalizing acc with
  | nil => rfl
  | cons i is ih =>
    simp only [step1Constraint]
    rw [show (c.rename σ).linear.getItem (p.rename ρ σ).varsIndex (.idx i) = c.linear.getItem p.varsIndex (.idx i) from rfl]
    cases c.linear.getItem p.varsIndex (.idx i) with
    | error e => rfl
    | ok b => exact ih _

theorem step1Constraints_rename (p : QP) (rest : List Nat) (cs : List LinCst) (acc : List Nat) :
    step1Constraints (p.rename ρ σ) rest (cs.map (LinCst.rename σ)) acc = step1Constraints p rest cs acc := by
  induction cs generalizing acc with
  | nil => rfl
  | cons c cs ih =>
    simp only [List.map_cons, step1Constraints, step1Constraint_rename]
    cases step1Constraint p c rest acc with
    | error e => rfl
    | ok b => exact ih _

theorem step1Absolute_rename (p : QP) : step1Absolute (p.rename ρ σ) = step1Absolute p := by
  unfold step1Absolute
  simp only [step1Objective_rename, binaryEqualities_rename, step1Constraints_rename, variableIndices_rename]

theorem getA0B0_rename (idx : List Nat) (cs : List LinCst) : getA0B0 idx (cs.map (LinCst.rename σ)) = getA0B0 idx cs := by
  have h : ∀ cs : List LinCst, a0Rows idx (cs.map (LinCst.rename σ)) = a0Rows idx cs := by
    intro cs
    induction cs with
    | nil => rfl
    | cons c cs ih => simp only [List.map_cons, a0Rows, ih, show (c.rename σ).linear = c.linear from rfl]
  unfold getA0B0
  rw [h, List.map_map]
  rfl

theorem admmRep_rename (p : QP) : admmRep (p.rename ρ σ) = (admmRep p).map (AdmmRep.rename ρ σ) := by
  unfold admmRep
  simp only [step1Absolute_rename, variableIndices_rename, binaryEqualities_rename, getA0B0_rename, equalities_rename,
    inequalities_rename, show (p.rename ρ σ).objective = p.objective from rfl]
  cases step1Absolute p with
  | error e => rfl
  | ok step1 =>
    simp only
    cases relativeIndices (variableIndices .binary p) 0 step1 with
    | error e => rfl
    | ok rel =>
      cases getQ p.objective.quadratic step1 with
      | error e => rfl
      | ok q0 =>
        cases takeIdx p.objective.linear.toArray step1 with
        | error e => rfl
        | ok c0 => cases getA0B0 step1 (binaryEqualities p) <;> rfl

theorem addBinaries_rename (hρ : Renaming ρ σ) (vars : List Variable) (is : List Nat) (op : QP) :
    addBinaries (vars.map (Variable.rename ρ)) is (op.rename ρ σ) = (addBinaries vars is op).map (QP.rename ρ σ) := by
  induction is generalizing op with
  | nil => rfl
  | cons i is ih =>
    simp only [addBinaries, QP.binaryVar, varName_rename hρ, addVariable_rename hρ]
    generalize op.addVariable 0 1 .binary (some (varName vars i)) = a
    obtain ⟨a, op'⟩ := a
    cases a with
    | error e => rfl
    | ok u => exact ih op'

theorem addFree_rename (hρ : Renaming ρ σ) (vars : List Variable) (is : List Nat) (op : QP) :
    addFree (vars.map (Variable.rename ρ)) is (op.rename ρ σ) = (addFree vars is op).map (QP.rename ρ σ) := by
  induction is generalizing op with
  | nil => rfl
  | cons i is ih =>
    simp only [addFree, QP.continuousVar, varName_rename hρ, addVariable_rename hρ]
    generalize op.addVariable (-INFINITY) INFINITY .continuous (some (varName vars i)) = a
    obtain ⟨a, op'⟩ := a
    cases a with
    | error e => rfl
    | ok u => exact ih op'

theorem matrix_names (vi vi' : Assoc String Nat) (n : Nat) (m : List (List ℚ)) :
    QuadExpr.ofInput vi' n (.matrix m) = QuadExpr.ofInput vi n (.matrix m) := rfl

theorem list_names (vi vi' : Assoc String Nat) (n : Nat) (m : List ℚ) :
    LinExpr.ofInput vi' n (.list m) = LinExpr.ofInput vi n (.list m) := rfl

theorem step1Problem_rename (hρ : Renaming ρ σ) (prm : AdmmParams) (r : AdmmRep) (s : AdmmState) :
    step1Problem prm (r.rename ρ σ) s = (step1Problem prm r s).map (QP.rename ρ σ) := by
  unfold step1Problem
  have h := addBinaries_rename hρ r.op.vars r.step1Abs (QP.empty "")
  rw [empty_rename] at h
  rw [show (r.rename ρ σ).op.vars = r.op.vars.map (Variable.rename ρ) from rfl,
    show (r.rename ρ σ).step1Abs = r.step1Abs from rfl, h]
  cases addBinaries r.op.vars r.step1Abs (QP.empty "") with
  | error e => rfl
  | ok op =>
    simp only [Except.map, numVars_rename, show step1Quadratic prm (r.rename ρ σ) s = step1Quadratic prm r s from rfl,
      show step1Linear prm (r.rename ρ σ) s = step1Linear prm r s from rfl]
    rw [matrix_names op.varsIndex (op.rename ρ σ).varsIndex, list_names op.varsIndex (op.rename ρ σ).varsIndex]
    cases QuadExpr.ofInput op.varsIndex op.numVars (.matrix (step1Quadratic prm r s)) with
    | error e => rfl
    | ok q => cases LinExpr.ofInput op.varsIndex op.numVars (.list (step1Linear prm r s)) <;> rfl

theorem step1Problem_csts {prm : AdmmParams} {r : AdmmRep} {s : AdmmState} {op : QP} (h : step1Problem prm r s = .ok op) :
    op.lins = [] ∧ op.quads = [] := by
  unfold step1Problem at h
  cases ha : addBinaries r.op.vars r.step1Abs (QP.empty "") with
  | error e => simp [ha] at h
  | ok op1 =>
    have hx := addBinaries_ok ha
    simp only [ha] at h
    split at h
    · simp at h
    · split at h
      · simp at h
      · simp only [Except.ok.injEq] at h
        subst h
        exact ⟨hx.lins, hx.quads⟩

theorem step3Problem_rename (hρ : Renaming ρ σ) (prm : AdmmParams) (r : AdmmRep) (s : AdmmState) :
    step3Problem prm (r.rename ρ σ) s = (step3Problem prm r s).map (QP.rename ρ σ) := by
  unfold step3Problem
  have h := addFree_rename hρ r.op.vars r.binIdx (QP.empty "")
  rw [empty_rename] at h
  rw [show (r.rename ρ σ).op.vars = r.op.vars.map (Variable.rename ρ) from rfl,
    show (r.rename ρ σ).binIdx = r.binIdx from rfl, h]
  cases addFree r.op.vars r.binIdx (QP.empty "") with
  | error e => rfl
  | ok op =>
    simp only [Except.map, numVars_rename]
    rw [matrix_names op.varsIndex (op.rename ρ σ).varsIndex, list_names op.varsIndex (op.rename ρ σ).varsIndex]
    generalize QuadExpr.ofInput op.varsIndex op.numVars (.matrix _) = a
    cases a with
    | error e => rfl
    | ok q =>
      simp only
      generalize LinExpr.ofInput op.varsIndex op.numVars (.list _) = b
      cases b <;> rfl

theorem relaxVar_rename (v : Variable) : relaxVar (v.rename ρ) = (relaxVar v).map (Variable.rename ρ) := by
  unfold relaxVar
  simp only [Variable.setUb, Variable.setLb, Variable.rename]
  by_cases h : v.lb > 1
  · simp [h, Except.map]
  · simp only [h, if_false]
    by_cases h' : (0 : ℚ) > 1
    · norm_num at h'
    · simp only [h', if_false, Except.map, Variable.rename]

theorem step2Vars_rename (s : AdmmState) (k : Nat) (is : List Nat) (op : QP) :
    step2Vars s k is (op.rename ρ σ) = (step2Vars s k is op).map (QP.rename ρ σ) := by
  induction is generalizing k op with
  | nil => rfl
  | cons i is ih =>
    simp only [step2Vars, show (op.rename ρ σ).objective = op.objective from rfl,
      show (op.rename ρ σ).vars = op.vars.map (Variable.rename ρ) from rfl, List.getElem?_map]
    cases op.vars[i]? with
    | none => rfl
    | some v =>
      simp only [Option.map_some, relaxVar_rename]
      cases relaxVar v with
      | error e => rfl
      | ok v =>
        simp only [Except.map]
        rw [show ∀ a, op.objective.quadratic.setItem (op.rename ρ σ).varsIndex (.idx i) (.idx i) a =
          op.objective.quadratic.setItem op.varsIndex (.idx i) (.idx i) a from fun _ => rfl,
          show ∀ a, op.objective.linear.setItem (op.rename ρ σ).varsIndex (.idx i) a =
            op.objective.linear.setItem op.varsIndex (.idx i) a from fun _ => rfl]
        cases op.objective.quadratic.setItem op.varsIndex (.idx i) (.idx i) (s.rho / 2) with
        | error e => rfl
        | ok q =>
          simp only
          cases op.objective.linear.setItem op.varsIndex (.idx i) (-1 * pt s.lam k - s.rho * (pt s.x0 k - pt s.y k)) with
          | error e => rfl
          | ok l =>
            simp only
            have := ih (k + 1)
              { op with vars := op.vars.set i v, objective := { op.objective with linear := l, quadratic := q } }
            simp only [QP.rename, List.map_set] at this
            exact this

theorem indexOfNames_rename (hi : ∀ s t, σ s = σ t → s = t) (l : List String) :
    indexOfNames (l.map σ) = mapKeys σ (indexOfNames l) := by
  unfold indexOfNames
  rw [List.zipIdx_map]
  exact foldl_set_mapKeys hi l.zipIdx (Prod.map σ id) Prod.fst Prod.fst Prod.snd Prod.snd (fun _ => rfl) (fun _ => rfl) []

theorem removeLinear_rename (hρ : Renaming ρ σ) (s : String) (op : QP) :
    (op.rename ρ σ).removeLinear (.name (σ s)) = Res.rename ρ σ id (op.removeLinear (.name s)) := by
  unfold QP.removeLinear
  simp only
  rw [show (op.rename ρ σ).linsIndex = mapKeys σ op.linsIndex from rfl, get?_mapKeys hρ.injCst,
    show (op.rename ρ σ).lins = op.lins.map (LinCst.rename σ) from rfl, List.length_map]
  cases Assoc.get? op.linsIndex s with
  | none => rfl
  | some i =>
    simp only
    split
    · have h : ((op.lins.map (LinCst.rename σ)).eraseIdx i).map LinCst.name = ((op.lins.eraseIdx i).map LinCst.name).map σ := by
        rw [List.eraseIdx_map, List.map_map, List.map_map]
        rfl
      rw [h, indexOfNames_rename hρ.injCst, List.eraseIdx_map]
      rfl
    · rfl

theorem removeConstraints_rename (hρ : Renaming ρ σ) (cs : List LinCst) (op : QP) :
    removeConstraints (cs.map (LinCst.rename σ)) (op.rename ρ σ) = (removeConstraints cs op).map (QP.rename ρ σ) := by
  induction cs generalizing op with
  | nil => rfl
  | cons c cs ih =>
    simp only [List.map_cons, removeConstraints, show (c.rename σ).name = σ c.name from rfl]
    rw [removeLinear_rename hρ]
    generalize op.removeLinear (.name c.name) = a
    obtain ⟨a, op'⟩ := a
    cases a with
    | error e => rfl
    | ok u => exact ih op'

theorem step2Problem_rename (hρ : Renaming ρ σ) (r : AdmmRep) (s : AdmmState) :
    step2Problem (r.rename ρ σ) s = (step2Problem r s).map (QP.rename ρ σ) := by
  unfold step2Problem
  rw [show (r.rename ρ σ).op = r.op.rename ρ σ from rfl, show (r.rename ρ σ).binIdx = r.binIdx from rfl, step2Vars_rename]
  cases step2Vars s 0 r.binIdx r.op with
  | error e => rfl
  | ok op => exact removeConstraints_rename hρ r.binEqs op

/-- A solver whose answers for programs without constraints do not depend on the names given by a renaming. -/
def Solver.BlindFree (ρ σ : String → String) (solver : Solver) : Prop :=
  ∀ t q, q.lins = [] → q.quads = [] → solver t (q.rename ρ σ) = solver t q

/-- A solver whose answers do not depend on the names given by a renaming. -/
def Solver.Blind (ρ σ : String → String) (solver : Solver) : Prop := ∀ t q, solver t (q.rename ρ σ) = solver t q

theorem checkedSolve_rename {solver : Solver} {t : Nat} {p : QP} (hs : solver t (p.rename ρ σ) = solver t p) :
    checkedSolve solver t (p.rename ρ σ) = checkedSolve solver t p := by
  unfold checkedSolve
  rw [hs, numVars_rename]

section
variable (hρ : Renaming ρ σ) {qubo cont : Solver} (hq : qubo.BlindFree ρ σ) (hc : cont.Blind ρ σ)
include hρ

theorem updateX0_rename (hq : qubo.BlindFree ρ σ) (t : Nat) (prm : AdmmParams) (r : AdmmRep) (s : AdmmState) :
    updateX0 qubo t prm (r.rename ρ σ) s = updateX0 qubo t prm r s := by
  unfold updateX0
  rw [show (r.rename ρ σ).step1Abs = r.step1Abs from rfl, step1Problem_rename hρ]
  split
  · rfl
  · cases h : step1Problem prm r s with
    | error e => rfl
    | ok op =>
      obtain ⟨h1, h2⟩ := step1Problem_csts h
      simp only [Except.map]
      rw [checkedSolve_rename (hq _ _ h1 h2)]
      rfl

theorem updateX1_rename (hc : cont.Blind ρ σ) (t : Nat) (r : AdmmRep) (s : AdmmState) :
    updateX1 cont t (r.rename ρ σ) s = updateX1 cont t r s := by
  unfold updateX1
  rw [step2Problem_rename hρ]
  cases step2Problem r s with
  | error e => rfl
  | ok op =>
    simp only [Except.map]
    rw [checkedSolve_rename (hc _ _)]
    rfl

theorem updateY_rename (hc : cont.Blind ρ σ) (t : Nat) (prm : AdmmParams) (r : AdmmRep) (s : AdmmState) :
    updateY cont t prm (r.rename ρ σ) s = updateY cont t prm r s := by
  unfold updateY
  rw [show (r.rename ρ σ).binIdx = r.binIdx from rfl, step3Problem_rename hρ]
  split
  · cases step3Problem prm r s with
    | error e => rfl
    | ok op => exact checkedSolve_rename (hc _ _)
  · rfl

theorem admmBlocks_rename (hq : qubo.BlindFree ρ σ) (hc : cont.Blind ρ σ) (prm : AdmmParams) (r : AdmmRep) (t : Nat) (s : AdmmState) :
    admmBlocks qubo cont prm (r.rename ρ σ) t s = admmBlocks qubo cont prm r t s := by
  unfold admmBlocks
  simp only [updateX0_rename hρ hq, updateX1_rename hρ hc, updateY_rename hρ hc]

omit hρ in
theorem constraintResidual_rename (r : AdmmRep) (x : List ℚ) :
    constraintResidual (r.rename ρ σ) x = constraintResidual r x := by
  have h1 : ∀ (l : List Cst) (acc : ℚ), residualEq x (l.map (Cst.rename σ)) acc = residualEq x l acc := by
    intro l
    induction l with
    | nil => intro; rfl
    | cons c l ih =>
      intro acc
      obtain ⟨e1, -, e3⟩ := cst_rename (σ := σ) c
      simp only [List.map_cons, residualEq, e1, e3, ih]
  have h2 : ∀ (l : List Cst) (acc : ℚ), residualIneq x (l.map (Cst.rename σ)) acc = residualIneq x l acc := by
    intro l
    induction l with
    | nil => intro; rfl
    | cons c l ih =>
      intro acc
      obtain ⟨e1, e2, e3⟩ := cst_rename (σ := σ) c
      simp only [List.map_cons, residualIneq, e1, e2, e3, ih]
  unfold constraintResidual
  simp only [AdmmRep.rename, h1, h2]

omit hρ in
theorem admmRecord_rename (norm : List ℚ → ℚ) (prm : AdmmParams) (r : AdmmRep) (t : Nat) (s : AdmmState) :
    admmRecord norm prm (r.rename ρ σ) t s = admmRecord norm prm r t s := by
  unfold admmRecord
  simp only [constraintResidual_rename]
  rfl

theorem admmLoop_rename (hq : qubo.BlindFree ρ σ) (hc : cont.Blind ρ σ) (norm : List ℚ → ℚ) (clock : Nat → Bool) (prm : AdmmParams)
    (r : AdmmRep) (k t : Nat) (res : ℚ) (s : AdmmState) :
    admmLoop qubo cont norm clock prm (r.rename ρ σ) k t res s = admmLoop qubo cont norm clock prm r k t res s := by
  induction k generalizing t res s with
  | zero => rfl
  | succ k ih => simp only [admmLoop, admmBlocks_rename hρ hq hc, admmRecord_rename, ih]

omit hρ in
theorem admmWarmStart_rename (hc : cont.Blind ρ σ) (p : QP) (s : AdmmState) :
    admmWarmStart cont (p.rename ρ σ) s = admmWarmStart cont p s := by
  unfold admmWarmStart
  have h := checkedSolve_rename (ρ := ρ) (σ := σ) (t := 0) (hc 0 { p with vars := p.vars.map fun v => { v with vartype := .continuous } })
  have e : ({ p with vars := p.vars.map fun v => { v with vartype := .continuous } } : QP).rename ρ σ =
      { p.rename ρ σ with vars := (p.rename ρ σ).vars.map fun v => { v with vartype := .continuous } } := by
    simp [QP.rename, Variable.rename, Function.comp_def]
  rw [e] at h
  rw [h]
  simp only [variableIndices_rename]

/-- ADMM commutes with renaming. -/
theorem admmSolve_rename (hq : qubo.BlindFree ρ σ) (hc : cont.Blind ρ σ) (norm : List ℚ → ℚ) (clock : Nat → Bool)
    (prm : AdmmParams) (p : QP) (hp : p.Named) :
    admmSolve qubo cont norm clock prm (p.rename ρ σ) = (admmSolve qubo cont norm clock prm p).map fun r =>
      ⟨r.result.rename ρ, r.rep.rename ρ σ, r.state, r.point⟩ := by
  unfold admmSolve
  rw [admmCompatible_rename, intToBin_rename hρ _ hp]
  cases admmCompatible p with
  | error e => rfl
  | ok b =>
    cases b with
    | false => rfl
    | true =>
      simp only
      cases p.intToBin with
      | error e => rfl
      | ok conv =>
        simp only [Except.map]
        rw [show (conv.rename ρ σ).dst = conv.dst.rename ρ σ from rfl, turnToMinimization_rename]
        cases turnToMinimization conv.dst with
        | error e => rfl
        | ok q =>
          simp only [Except.map]
          rw [show admmInit prm (q.rename ρ σ) = admmInit prm q by unfold admmInit; simp only [variableIndices_rename],
            admmWarmStart_rename hc]
          generalize (if prm.warmStart = true then admmWarmStart cont q (admmInit prm q)
            else Except.ok (admmInit prm q)) = a
          cases a with
          | error e => rfl
          | ok s =>
            simp only
            rw [admmRep_rename]
            cases admmRep q with
            | error e => rfl
            | ok r =>
              simp only [Except.map]
              rw [admmLoop_rename hρ hq hc]
              cases admmLoop qubo cont norm clock prm r prm.maxiter 0 100 s with
              | error e => rfl
              | ok s =>
                simp only
                cases bestMerit s with
                | error e => rfl
                | ok b =>
                  simp only [show (r.rename ρ σ).binIdx = r.binIdx from rfl, show (r.rename ρ σ).contIdx = r.contIdx from rfl]
                  cases revertIndexes r.binIdx r.contIdx b.1 b.2.1 with
                  | error e => rfl
                  | ok x =>
                    simp only
                    rw [show (conv.rename ρ σ).interpret = conv.interpret from funext fun x => i2bInterpret_rename hρ conv x,
                      interpretResult_rename hρ]
                    cases interpretResult p [conv.interpret] [] [] x <;> rfl

end

end Verif
