import Verif.Raise

/-!
# Multiplying the objective by a positive number

Helper lemmas for C112: every function of the model applied to a program and to the program whose objective is multiplied by a
number.
-/

namespace Verif

/-- The same dictionary with all values multiplied. -/
def scaleD {κ : Type} (w : ℚ) (d : Dict κ) : Dict κ := d.map fun p => (p.1, w * p.2)

/-- The objective multiplied by a number. -/
def Objective.scale (w : ℚ) (o : Objective) : Objective :=
  ⟨w * o.constant, ⟨o.linear.n, scaleD w o.linear.coeffs⟩, ⟨o.quadratic.n, scaleD w o.quadratic.coeffs⟩, o.sense⟩

/-- The program whose objective is multiplied by a number. -/
def QP.scale (w : ℚ) (p : QP) : QP := { p with objective := p.objective.scale w }

/-- The input with all linear coefficients multiplied. -/
def LinInput.scale (w : ℚ) : LinInput → LinInput
  | .dict l => .dict (l.map fun p => (p.1, w * p.2))
  | .list l => .list (l.map fun v => w * v)
  | .sparse e => .sparse ⟨e.n, scaleD w e.coeffs⟩

/-- The input with all quadratic coefficients multiplied. -/
def QuadInput.scale (w : ℚ) : QuadInput → QuadInput
  | .dict l => .dict (l.map fun p => (p.1, w * p.2))
  | .matrix rows => .matrix (rows.map fun r => r.map fun v => w * v)
  | .sparse e => .sparse ⟨e.n, scaleD w e.coeffs⟩

/-- A sample with the value multiplied. -/
def Sample.scale (w : ℚ) (s : Sample) : Sample := { s with fval := w * s.fval }

/-- A result with all objective values multiplied. -/
def Result.scale (w : ℚ) (r : Result) : Result :=
  { r with fval := r.fval.map (w * ·), samples := r.samples.map (Sample.scale w), rawSamples := r.rawSamples.map (Sample.scale w) }

/-- An operation that leaves the objective alone does the same to the scaled program. -/
def Res.scale {α : Type} (w : ℚ) (r : Res α) : Res α := (r.1, r.2.scale w)

theorem objective_scale (w : ℚ) (p : QP) : (p.scale w).objective =
    ⟨w * p.objective.constant, ⟨p.objective.linear.n, scaleD w p.objective.linear.coeffs⟩,
      ⟨p.objective.quadratic.n, scaleD w p.objective.quadratic.coeffs⟩, p.objective.sense⟩ := rfl

section dict
variable {κ : Type} [DecidableEq κ] {w : ℚ}

theorem get?_scaleD (d : Dict κ) (k : κ) : Assoc.get? (scaleD w d) k = (Assoc.get? d k).map (w * ·) := by
  induction d with
  | nil => rfl
  | cons p d ih =>
    simp only [scaleD, List.map_cons, Assoc.get?] at ih ⊢
    split
    · rfl
    · exact ih

theorem get_scaleD (d : Dict κ) (k : κ) : Dict.get (scaleD w d) k = w * Dict.get d k := by
  unfold Dict.get
  rw [get?_scaleD]
  cases Assoc.get? d k <;> simp

theorem set_scaleD (d : Dict κ) (k : κ) (v : ℚ) : Assoc.set (scaleD w d) k (w * v) = scaleD w (Assoc.set d k v) := by
  induction d with
  | nil => rfl
  | cons p d ih =>
    simp only [scaleD, List.map_cons, Assoc.set] at ih ⊢
    split
    · rfl
    · rw [List.map_cons, ← ih]

theorem erase_scaleD (d : Dict κ) (k : κ) : Assoc.erase (scaleD w d) k = scaleD w (Assoc.erase d k) := by
  induction d with
  | nil => rfl
  | cons p d ih =>
    simp only [scaleD, List.map_cons, Assoc.erase] at ih ⊢
    split
    · rfl
    · rw [List.map_cons, ← ih]

theorem add_scaleD (d : Dict κ) (k : κ) (v : ℚ) : Dict.add (scaleD w d) k (w * v) = scaleD w (Dict.add d k v) := by
  unfold Dict.add
  rw [get_scaleD, ← mul_add, set_scaleD]

theorem dokSet_scaleD (hw : w ≠ 0) (d : Dict κ) (k : κ) (v : ℚ) :
    Dict.dokSet (scaleD w d) k (w * v) = scaleD w (Dict.dokSet d k v) := by
  unfold Dict.dokSet
  by_cases h : v = 0
  · rw [if_pos h, if_pos (by rw [h, mul_zero]), erase_scaleD]
  · rw [if_neg h, if_neg (mul_ne_zero hw h), set_scaleD]

theorem dokPlus_scaleD (a b : Dict κ) : dokPlus (scaleD w a) (scaleD w b) = scaleD w (dokPlus a b) := by
  unfold dokPlus
  induction b generalizing a with
  | nil => rfl
  | cons p b ih =>
    show List.foldl _ (Dict.add (scaleD w a) p.1 (w * p.2)) (scaleD w b) = _
    rw [add_scaleD]
    exact ih _

omit [DecidableEq κ] in
theorem filter_scaleD (d : Dict κ) (f : κ → Bool) :
    (scaleD w d).filter (fun p => f p.1) = scaleD w (d.filter fun p => f p.1) := by
  unfold scaleD
  rw [List.filter_map]
  rfl

omit [DecidableEq κ] in
theorem filter_ne_scaleD (hw : w ≠ 0) (d : Dict κ) :
    (scaleD w d).filter (fun p => decide (p.2 ≠ 0)) = scaleD w (d.filter fun p => decide (p.2 ≠ 0)) := by
  unfold scaleD
  rw [List.filter_map]
  congr 1
  apply List.filter_congr
  intro p _
  simp [hw]

theorem csrMinus_scaleD (hw : w ≠ 0) (a b : Dict κ) : csrMinus (scaleD w a) (scaleD w b) = scaleD w (csrMinus a b) := by
  unfold csrMinus
  rw [← filter_ne_scaleD hw]
  congr 1
  induction b generalizing a with
  | nil => rfl
  | cons p b ih =>
    show List.foldl _ (Dict.add (scaleD w a) p.1 (-(w * p.2))) (scaleD w b) = _
    rw [← mul_neg, add_scaleD]
    exact ih _

omit [DecidableEq κ] in
theorem sum_scaleD (d : Dict κ) (f : κ → ℚ) : Dict.sum (scaleD w d) f = w * Dict.sum d f := by
  induction d with
  | nil => exact (mul_zero w).symm
  | cons p d ih =>
    show w * p.2 * f p.1 + Dict.sum (scaleD w d) f = w * (p.2 * f p.1 + Dict.sum d f)
    rw [ih]
    ring

end dict

variable {w : ℚ}

theorem transpose_scaleD (d : Dict (Nat × Nat)) : transpose (scaleD w d) = scaleD w (transpose d) := by
  unfold transpose scaleD
  simp [Function.comp_def]

theorem triangle_scaleD (hw : w ≠ 0) (d : Dict (Nat × Nat)) : triangle (scaleD w d) = scaleD w (triangle d) := by
  unfold triangle
  simp only
  rw [filter_scaleD d fun k => decide (k.2 < k.1), transpose_scaleD, dokPlus_scaleD, csrMinus_scaleD hw]

theorem linOfEntries_scale (hw : w ≠ 0) (vi : Assoc String Nat) (n : Nat) (l : List (Key × ℚ)) (acc : Dict Nat) :
    linOfEntries vi n (l.map fun p => (p.1, w * p.2)) (scaleD w acc) = (linOfEntries vi n l acc).map (scaleD w) := by
  induction l generalizing acc with
  | nil => rfl
  | cons p l ih =>
    obtain ⟨k, v⟩ := p
    simp only [List.map_cons, linOfEntries]
    cases resolve vi n k with
    | error e => rfl
    | ok i =>
      simp only
      rw [dokSet_scaleD hw]
      exact ih _

theorem quadOfEntries_scale (hw : w ≠ 0) (vi : Assoc String Nat) (n : Nat) (l : List ((Key × Key) × ℚ))
    (acc : Dict (Nat × Nat)) :
    quadOfEntries vi n (l.map fun p => (p.1, w * p.2)) (scaleD w acc) = (quadOfEntries vi n l acc).map (scaleD w) := by
  induction l generalizing acc with
  | nil => rfl
  | cons p l ih =>
    obtain ⟨⟨k, k'⟩, v⟩ := p
    simp only [List.map_cons, quadOfEntries]
    cases resolve vi n k with
    | error e => rfl
    | ok i =>
      cases resolve vi n k' with
      | error e => rfl
      | ok j =>
        simp only
        rw [dokSet_scaleD hw]
        exact ih _

theorem linOfList_scale (hw : w ≠ 0) (l : List ℚ) : linOfList (l.map fun v => w * v) = scaleD w (linOfList l) := by
  unfold linOfList
  rw [← filter_ne_scaleD hw]
  congr 1
  unfold scaleD
  rw [List.zipIdx_map]
  simp [Function.comp_def]

theorem quadOfMatrix_scale (hw : w ≠ 0) (rows : List (List ℚ)) :
    quadOfMatrix (rows.map fun r => r.map fun v => w * v) = scaleD w (quadOfMatrix rows) := by
  unfold quadOfMatrix
  rw [← filter_ne_scaleD hw]
  congr 1
  unfold scaleD
  rw [List.zipIdx_map]
  simp only [List.map_flatMap, List.flatMap_map, Function.comp_def, Prod.map]
  congr 1
  funext r
  simp [List.zipIdx_map, Function.comp_def]

theorem linExpr_scale (hw : w ≠ 0) (vi : Assoc String Nat) (n : Nat) (l : LinInput) :
    LinExpr.ofInput vi n (l.scale w) = (LinExpr.ofInput vi n l).map fun e => ⟨e.n, scaleD w e.coeffs⟩ := by
  cases l with
  | dict l =>
    simp only [LinInput.scale, LinExpr.ofInput]
    rw [show linOfEntries vi n (l.map fun p => (p.1, w * p.2)) [] = _ from linOfEntries_scale hw vi n l []]
    cases linOfEntries vi n l [] <;> rfl
  | list l => simp [LinInput.scale, LinExpr.ofInput, linOfList_scale hw, Except.map]
  | sparse e => rfl

theorem quadExpr_scale (hw : w ≠ 0) (vi : Assoc String Nat) (n : Nat) (l : QuadInput) :
    QuadExpr.ofInput vi n (l.scale w) = (QuadExpr.ofInput vi n l).map fun e => ⟨e.n, scaleD w e.coeffs⟩ := by
  cases l with
  | dict l =>
    simp only [QuadInput.scale, QuadExpr.ofInput]
    rw [show quadOfEntries vi n (l.map fun p => (p.1, w * p.2)) [] = _ from quadOfEntries_scale hw vi n l []]
    cases quadOfEntries vi n l [] with
    | error e => rfl
    | ok d => simp [Except.map, triangle_scaleD hw]
  | matrix rows =>
    simp only [QuadInput.scale, QuadExpr.ofInput, List.all_map, Function.comp_def, List.length_map]
    split
    · simp [Except.map, quadOfMatrix_scale hw, triangle_scaleD hw]
    · rfl
  | sparse e => simp [QuadInput.scale, QuadExpr.ofInput, Except.map, triangle_scaleD hw]

theorem setObjective_scale (hw : w ≠ 0) (p : QP) (s : ObjSense) (c : ℚ) (l : LinInput) (q : QuadInput) :
    p.setObjective s (w * c) (l.scale w) (q.scale w) =
      match p.setObjective s c l q with
      | (.error e, _) => (.error e, p)
      | (.ok u, d) => (.ok u, d.scale w) := by
  unfold QP.setObjective
  rw [linExpr_scale hw, quadExpr_scale hw]
  cases LinExpr.ofInput p.varsIndex p.numVars l with
  | error e => rfl
  | ok l => cases QuadExpr.ofInput p.varsIndex p.numVars q <;> rfl

theorem addOneVar_scale (w : ℚ) (p : QP) (s : String) (lb ub : ℚ) (t : VarType) :
    (p.scale w).addOneVar s lb ub t = Res.scale w (p.addOneVar s lb ub t) := by
  unfold QP.addOneVar
  simp only [show (p.scale w).varsIndex = p.varsIndex from rfl, show (p.scale w).numVars = p.numVars from rfl]
  split
  · rfl
  · cases Variable.mk? s lb ub t <;> rfl

theorem addVarsCount_scale (w : ℚ) (s : String) (fmt : KeyFormat) (lb ub : ℚ) (t : VarType) (m k : Nat) (p : QP) :
    QP.addVarsCount s fmt lb ub t m k (p.scale w) = Res.scale w (QP.addVarsCount s fmt lb ub t m k p) := by
  induction m generalizing k p with
  | zero => rfl
  | succ m ih =>
    simp only [QP.addVarsCount, show (p.scale w).varsIndex = p.varsIndex from rfl]
    cases findName p.varsIndex s fmt (p.varsIndex.length + 2) none k with
    | error e => rfl
    | ok r =>
      simp only
      rw [addOneVar_scale]
      generalize p.addOneVar r.1 lb ub t = a
      obtain ⟨a, p'⟩ := a
      cases a with
      | error e => rfl
      | ok v =>
        simp only [Res.scale]
        rw [ih]
        generalize QP.addVarsCount s fmt lb ub t m r.2 p' = b
        obtain ⟨b, p''⟩ := b
        cases b <;> rfl

theorem addVariable_scale (w : ℚ) (p : QP) (lb ub : ℚ) (t : VarType) (s : String) :
    (p.scale w).addVariable lb ub t (some s) = Res.scale w (p.addVariable lb ub t (some s)) := by
  simp only [QP.addVariable, QP.addVariables, show (p.scale w).numVars = p.numVars from rfl, Option.getD_some]
  rw [if_neg (by decide), if_neg (by decide), if_neg (by decide), if_neg (by decide), addVarsCount_scale]
  generalize QP.addVarsCount s (.lit "") lb ub t _ p.numVars p = a
  obtain ⟨a, p'⟩ := a
  cases a with
  | error e => rfl
  | ok l => cases l <;> rfl

theorem linearConstraint_scale (w : ℚ) (p : QP) (l : LinInput) (s : SenseInput) (r : ℚ) (n : Option String) :
    (p.scale w).linearConstraint l s r n = Res.scale w (p.linearConstraint l s r n) := by
  unfold QP.linearConstraint
  simp only [show (p.scale w).linsIndex = p.linsIndex from rfl, show (p.scale w).lins = p.lins from rfl,
    show (p.scale w).varsIndex = p.varsIndex from rfl, show (p.scale w).numVars = p.numVars from rfl]
  cases chooseName p.linsIndex p.lins.length "c" n with
  | error e => rfl
  | ok nm =>
    cases Sense.convert s with
    | error e => rfl
    | ok s =>
      simp only [QP.numVars, QP.scale]
      cases LinExpr.ofInput p.varsIndex p.vars.length l <;> rfl

theorem quadraticConstraint_scale (w : ℚ) (p : QP) (l : LinInput) (q : QuadInput) (s : SenseInput) (r : ℚ)
    (n : Option String) :
    (p.scale w).quadraticConstraint l q s r n = Res.scale w (p.quadraticConstraint l q s r n) := by
  unfold QP.quadraticConstraint
  simp only [show (p.scale w).quadsIndex = p.quadsIndex from rfl, show (p.scale w).quads = p.quads from rfl,
    show (p.scale w).varsIndex = p.varsIndex from rfl, show (p.scale w).numVars = p.numVars from rfl]
  cases chooseName p.quadsIndex p.quads.length "q" n with
  | error e => rfl
  | ok nm =>
    cases Sense.convert s with
    | error e => rfl
    | ok s =>
      simp only [QP.numVars, QP.scale]
      cases LinExpr.ofInput p.varsIndex p.vars.length l with
      | error e => rfl
      | ok l => cases QuadExpr.ofInput p.varsIndex p.vars.length q <;> rfl

theorem calcLinBounds_scale (w : ℚ) (src : QP) (d : Dict String) (acc : ℚ × ℚ) :
    calcLinBounds (src.scale w) d acc = calcLinBounds src d acc := by
  induction d generalizing acc with
  | nil => rfl
  | cons p d ih =>
    obtain ⟨s, v⟩ := p
    simp only [calcLinBounds, show (src.scale w).getVariable (.name s) = src.getVariable (.name s) from rfl]
    cases src.getVariable (.name s) with
    | error e => rfl
    | ok x => exact ih _

theorem slackVar_scale (w : ℚ) (dst : QP) (t : VarType) (n : String) (s : Sense) (r lb ub : ℚ) :
    slackVar (dst.scale w) t n s r lb ub = (slackVar dst t n s r lb ub).map fun a => (a.1, (a.2.scale w)) := by
  unfold slackVar
  cases s with
  | eq => rfl
  | le =>
    simp only
    split
    · rw [addVariable_scale]
      generalize dst.addVariable 0 (r - lb) t (some n) = a
      obtain ⟨a, p'⟩ := a
      cases a <;> rfl
    · rfl
  | ge =>
    simp only
    split
    · rw [addVariable_scale]
      generalize dst.addVariable 0 (ub - r) t (some n) = a
      obtain ⟨a, p'⟩ := a
      cases a <;> rfl
    · rfl

theorem intSlackLin_scale (w : ℚ) (src dst : QP) (lin : Dict String) (s : Sense) (r : ℚ) (n : String) :
    intSlackLin (src.scale w) (dst.scale w) lin s r n = (intSlackLin src dst lin s r n).map (QP.scale w) := by
  unfold intSlackLin
  split
  · rfl
  · rw [calcLinBounds_scale]
    cases calcLinBounds src lin (0, 0) with
    | error e => rfl
    | ok b =>
      simp only
      rw [slackVar_scale]
      cases slackVar dst .integer (n ++ delim ++ "int_slack") s (roundRhs s r) b.1 b.2 with
      | error e => rfl
      | ok a =>
        simp only [Except.map]
        rw [linearConstraint_scale]
        generalize a.2.linearConstraint (linNames (withSlack lin a.1)) (.str "==") (roundRhs s r) (some n) = c
        obtain ⟨c, p'⟩ := c
        cases c <;> rfl

theorem i2eLinOne_scale (w : ℚ) (src dst : QP) (k : LinCst) :
    i2eLinOne .integer (src.scale w) (dst.scale w) k = (i2eLinOne .integer src dst k).map (QP.scale w) := by
  unfold i2eLinOne
  simp only [show (src.scale w).vars = src.vars from rfl]
  split
  · rw [linearConstraint_scale]
    generalize dst.linearConstraint (linNames (k.linear.toDictNames src.vars)) (.sense k.sense) k.rhs (some k.name) = c
    obtain ⟨c, p'⟩ := c
    cases c <;> rfl
  · exact intSlackLin_scale _ _ _ _ _ _ _

theorem i2eLins_scale (w : ℚ) (src : QP) (ks : List LinCst) (dst : QP) :
    i2eLins .integer (src.scale w) ks (dst.scale w) = (i2eLins .integer src ks dst).map (QP.scale w) := by
  induction ks generalizing dst with
  | nil => rfl
  | cons k ks ih =>
    simp only [i2eLins]
    rw [i2eLinOne_scale]
    cases i2eLinOne .integer src dst k with
    | error e => rfl
    | ok d => exact ih d

theorem calcQuadBounds_scale (w : ℚ) (src : QP) (lin : Dict String) (quad : Dict (String × String)) :
    calcQuadBounds (src.scale w) lin quad = calcQuadBounds src lin quad := by
  unfold calcQuadBounds
  rw [calcLinBounds_scale]
  cases calcLinBounds src lin (0, 0) with
  | error e => rfl
  | ok acc =>
    simp only
    induction quad generalizing acc with
    | nil => rfl
    | cons p d ih =>
      obtain ⟨⟨si, sj⟩, v⟩ := p
      simp only [calcQuadBoundsLoop,
        show ∀ s, (src.scale w).getVariable (.name s) = src.getVariable (.name s) from fun _ => rfl]
      cases src.getVariable (.name si) with
      | error e => rfl
      | ok x =>
        cases src.getVariable (.name sj) with
        | error e => rfl
        | ok y => exact ih _

theorem intSlackQuad_scale (w : ℚ) (src dst : QP) (lin : Dict String) (quad : Dict (String × String)) (s : Sense) (r : ℚ)
    (n : String) :
    intSlackQuad (src.scale w) (dst.scale w) lin quad s r n = (intSlackQuad src dst lin quad s r n).map (QP.scale w) := by
  unfold intSlackQuad
  split
  · rfl
  · rw [calcQuadBounds_scale]
    cases calcQuadBounds src lin quad with
    | error e => rfl
    | ok b =>
      simp only
      rw [slackVar_scale]
      cases slackVar dst .integer (n ++ delim ++ "int_slack") s (roundRhs s r) b.1 b.2 with
      | error e => rfl
      | ok a =>
        simp only [Except.map]
        rw [quadraticConstraint_scale]
        generalize a.2.quadraticConstraint _ _ _ _ _ = c
        obtain ⟨c, p'⟩ := c
        cases c <;> rfl

theorem i2eQuadOne_scale (w : ℚ) (src dst : QP) (k : QuadCst) :
    i2eQuadOne .integer (src.scale w) (dst.scale w) k = (i2eQuadOne .integer src dst k).map (QP.scale w) := by
  unfold i2eQuadOne
  simp only [show (src.scale w).vars = src.vars from rfl]
  split
  · rw [quadraticConstraint_scale]
    generalize dst.quadraticConstraint _ _ _ _ _ = c
    obtain ⟨c, p'⟩ := c
    cases c <;> rfl
  · exact intSlackQuad_scale _ _ _ _ _ _ _ _

theorem i2eQuads_scale (w : ℚ) (src : QP) (ks : List QuadCst) (dst : QP) :
    i2eQuads .integer (src.scale w) ks (dst.scale w) = (i2eQuads .integer src ks dst).map (QP.scale w) := by
  induction ks generalizing dst with
  | nil => rfl
  | cons k ks ih =>
    simp only [i2eQuads]
    rw [i2eQuadOne_scale]
    cases i2eQuadOne .integer src dst k with
    | error e => rfl
    | ok d => exact ih d

theorem linNames_scaleD (d : Dict String) : linNames (scaleD w d) = (linNames d).scale w := by
  simp [linNames, LinInput.scale, scaleD, Function.comp_def]

theorem quadNames_scaleD (d : Dict (String × String)) : quadNames (scaleD w d) = (quadNames d).scale w := by
  simp [quadNames, QuadInput.scale, scaleD, Function.comp_def]

theorem linIdx_scaleD (d : Dict Nat) : linIdx (scaleD w d) = (linIdx d).scale w := by
  simp [linIdx, LinInput.scale, scaleD, Function.comp_def]

theorem quadIdx_scaleD (d : Dict (Nat × Nat)) : quadIdx (scaleD w d) = (quadIdx d).scale w := by
  simp [quadIdx, QuadInput.scale, scaleD, Function.comp_def]

theorem linToDictNames_scaleD (n : Nat) (d : Dict Nat) (vars : List Variable) :
    LinExpr.toDictNames ⟨n, scaleD w d⟩ vars = scaleD w (LinExpr.toDictNames ⟨n, d⟩ vars) := by
  simp [LinExpr.toDictNames, scaleD, Function.comp_def]

theorem quadToDictNames_scaleD (n : Nat) (d : Dict (Nat × Nat)) (vars : List Variable) :
    QuadExpr.toDictNames ⟨n, scaleD w d⟩ vars = scaleD w (QuadExpr.toDictNames ⟨n, d⟩ vars) := by
  simp [QuadExpr.toDictNames, scaleD, Function.comp_def]

theorem ineqToEq_scale (hw : w ≠ 0) (src : QP) :
    (src.scale w).ineqToEq .integer = (src.ineqToEq .integer).map (QP.scale w) := by
  unfold QP.ineqToEq
  simp only [show (src.scale w).vars = src.vars from rfl, show (src.scale w).name = src.name from rfl,
    show (src.scale w).lins = src.lins from rfl, show (src.scale w).quads = src.quads from rfl]
  cases copyAllVars src.vars (QP.empty src.name) with
  | error e => rfl
  | ok dst =>
    simp only [objective_scale, linToDictNames_scaleD, quadToDictNames_scaleD, linNames_scaleD, quadNames_scaleD]
    rw [setObjective_scale hw]
    generalize dst.setObjective _ _ _ _ = a
    obtain ⟨a, p'⟩ := a
    cases a with
    | error e => rfl
    | ok u =>
      simp only
      rw [i2eLins_scale]
      cases i2eLins .integer src src.lins p' with
      | error e => rfl
      | ok d => exact i2eQuads_scale w src src.quads d

theorem foldl_set_scale {κ α : Type} [DecidableEq κ] (l : List α) (k : α → κ) (f g : α → ℚ) (h : ∀ a ∈ l, g a = w * f a)
    (d : Dict κ) : l.foldl (fun d a => Assoc.set d (k a) (g a)) (scaleD w d) =
      scaleD w (l.foldl (fun d a => Assoc.set d (k a) (f a)) d) := by
  induction l generalizing d with
  | nil => rfl
  | cons a l ih =>
    simp only [List.foldl_cons]
    rw [h a List.mem_cons_self, set_scaleD]
    exact ih (fun b hb => h b (List.mem_cons_of_mem _ hb)) _

theorem foldl_add_scale {κ α : Type} [DecidableEq κ] (l : List α) (k : α → κ) (f g : α → ℚ) (h : ∀ a ∈ l, g a = w * f a)
    (d : Dict κ) : l.foldl (fun d a => Dict.add d (k a) (g a)) (scaleD w d) =
      scaleD w (l.foldl (fun d a => Dict.add d (k a) (f a)) d) := by
  induction l generalizing d with
  | nil => rfl
  | cons a l ih =>
    simp only [List.foldl_cons]
    rw [h a List.mem_cons_self, add_scaleD]
    exact ih (fun b hb => h b (List.mem_cons_of_mem _ hb)) _

theorem i2bLin_scale (src : QP) (conv : Conv) (d lin : Dict String) (c : ℚ) :
    i2bLin (src.scale w) conv (scaleD w d) (scaleD w lin) (w * c) =
      (i2bLin src conv d lin c).map fun r => (scaleD w r.1, w * r.2) := by
  induction d generalizing lin c with
  | nil => rfl
  | cons p d ih =>
    obtain ⟨s, v⟩ := p
    rw [show scaleD w ((s, v) :: d) = (s, w * v) :: scaleD w d from rfl]
    simp only [i2bLin, show (src.scale w).getVariable (.name s) = src.getVariable (.name s) from rfl]
    cases src.getVariable (.name s) with
    | error e => rfl
    | ok x =>
      simp only
      cases Assoc.get? conv x.name with
      | none => simp only; rw [set_scaleD]; exact ih _ _
      | some enc =>
        simp only
        rw [foldl_set_scale enc Prod.fst (fun p => v * p.2) _ (fun _ _ => by ring),
          show w * c + w * v * x.lb = w * (c + v * x.lb) by ring]
        exact ih _ _

theorem i2bLin_scaleSrc (w : ℚ) (src : QP) (conv : Conv) (d lin : Dict String) (c : ℚ) :
    i2bLin (src.scale w) conv d lin c = i2bLin src conv d lin c := by
  induction d generalizing lin c with
  | nil => rfl
  | cons p d ih =>
    obtain ⟨s, v⟩ := p
    simp only [i2bLin, show (src.scale w).getVariable (.name s) = src.getVariable (.name s) from rfl]
    cases src.getVariable (.name s) with
    | error e => rfl
    | ok x =>
      simp only
      cases Assoc.get? conv x.name <;> exact ih _ _

theorem foldl_foldl_scale (ex ey : List (String × ℚ)) (v : ℚ) (d : Dict (String × String)) :
    ex.foldl (fun d p => ey.foldl (fun d q => Assoc.set d (p.1, q.1) (w * v * p.2 * q.2)) d) (scaleD w d) =
      scaleD w (ex.foldl (fun d p => ey.foldl (fun d q => Assoc.set d (p.1, q.1) (v * p.2 * q.2)) d) d) := by
  induction ex generalizing d with
  | nil => rfl
  | cons p ex ih =>
    simp only [List.foldl_cons]
    rw [foldl_set_scale ey (fun q => (p.1, q.1)) (fun q => v * p.2 * q.2) _ (fun _ _ => by ring)]
    exact ih _

theorem i2bQuad_scale (src : QP) (conv : Conv) (d quad : Dict (String × String)) (lin : Dict String) (c : ℚ) :
    i2bQuad (src.scale w) conv (scaleD w d) (scaleD w quad) (scaleD w lin) (w * c) =
      (i2bQuad src conv d quad lin c).map fun r => (scaleD w r.1, scaleD w r.2.1, w * r.2.2) := by
  induction d generalizing quad lin c with
  | nil => rfl
  | cons p d ih =>
    obtain ⟨⟨si, sj⟩, v⟩ := p
    rw [show scaleD w (((si, sj), v) :: d) = ((si, sj), w * v) :: scaleD w d from rfl]
    simp only [i2bQuad, show ∀ s, (src.scale w).getVariable (.name s) = src.getVariable (.name s) from fun _ => rfl]
    cases src.getVariable (.name si) with
    | error e => rfl
    | ok x =>
      cases src.getVariable (.name sj) with
      | error e => rfl
      | ok y =>
        simp only
        cases Assoc.get? conv x.name with
        | none =>
          cases Assoc.get? conv y.name with
          | none => simp only; rw [set_scaleD]; exact ih _ _ _
          | some ey =>
            simp only
            rw [foldl_set_scale ey (fun p => (x.name, p.1)) (fun p => v * p.2) _ (fun _ _ => by ring), mul_assoc, add_scaleD]
            exact ih _ _ _
        | some ex =>
          cases Assoc.get? conv y.name with
          | none =>
            simp only
            rw [foldl_set_scale ex (fun p => (p.1, y.name)) (fun p => v * p.2) _ (fun _ _ => by ring), mul_assoc, add_scaleD]
            exact ih _ _ _
          | some ey =>
            simp only
            rw [foldl_foldl_scale, foldl_add_scale ex Prod.fst (fun _ => v * y.lb) _ (fun _ _ => by ring),
              foldl_add_scale ey Prod.fst (fun _ => v * x.lb) _ (fun _ _ => by ring),
              show w * c + w * v * x.lb * y.lb = w * (c + v * x.lb * y.lb) by ring]
            exact ih _ _ _

theorem i2bQuad_scaleSrc (w : ℚ) (src : QP) (conv : Conv) (d quad : Dict (String × String)) (lin : Dict String) (c : ℚ) :
    i2bQuad (src.scale w) conv d quad lin c = i2bQuad src conv d quad lin c := by
  induction d generalizing quad lin c with
  | nil => rfl
  | cons p d ih =>
    obtain ⟨⟨si, sj⟩, v⟩ := p
    simp only [i2bQuad, show ∀ s, (src.scale w).getVariable (.name s) = src.getVariable (.name s) from fun _ => rfl]
    cases src.getVariable (.name si) with
    | error e => rfl
    | ok x =>
      cases src.getVariable (.name sj) with
      | error e => rfl
      | ok y =>
        simp only
        cases Assoc.get? conv x.name <;> cases Assoc.get? conv y.name <;> exact ih _ _ _

theorem i2bObjective_scale (hw : w ≠ 0) (src : QP) (conv : Conv) (dst : QP) :
    i2bObjective (src.scale w) conv dst = (i2bObjective src conv dst).map (QP.scale w) := by
  unfold i2bObjective
  simp only [show (src.scale w).vars = src.vars from rfl, objective_scale, linToDictNames_scaleD, quadToDictNames_scaleD]
  have h1 := i2bLin_scale (w := w) src conv (src.objective.linear.toDictNames src.vars) [] 0
  have h2 := i2bQuad_scale (w := w) src conv (src.objective.quadratic.toDictNames src.vars) [] [] 0
  rw [mul_zero] at h1 h2
  rw [show i2bLin (src.scale w) conv _ [] 0 = _ from h1]
  cases i2bLin src conv (src.objective.linear.toDictNames src.vars) [] 0 with
  | error e => rfl
  | ok r =>
    simp only [Except.map]
    rw [show i2bQuad (src.scale w) conv _ [] [] 0 = _ from h2]
    cases i2bQuad src conv (src.objective.quadratic.toDictNames src.vars) [] [] 0 with
    | error e => rfl
    | ok t =>
      simp only [Except.map]
      rw [dokPlus_scaleD, linNames_scaleD, quadNames_scaleD,
        show w * src.objective.constant + w * r.2 + w * t.2.2 = w * (src.objective.constant + r.2 + t.2.2) by ring,
        setObjective_scale hw]
      generalize dst.setObjective _ _ _ _ = a
      obtain ⟨a, p'⟩ := a
      cases a <;> rfl

theorem i2bLins_scale (w : ℚ) (src : QP) (conv : Conv) (ks : List LinCst) (dst : QP) :
    i2bLins (src.scale w) conv ks (dst.scale w) = (i2bLins src conv ks dst).map (QP.scale w) := by
  induction ks generalizing dst with
  | nil => rfl
  | cons k ks ih =>
    simp only [i2bLins, show (src.scale w).vars = src.vars from rfl]
    rw [i2bLin_scaleSrc]
    cases i2bLin src conv (k.linear.toDictNames src.vars) [] 0 with
    | error e => rfl
    | ok r =>
      simp only
      rw [linearConstraint_scale]
      generalize dst.linearConstraint _ _ _ _ = a
      obtain ⟨a, p'⟩ := a
      cases a with
      | error e => rfl
      | ok _ => exact ih p'

theorem i2bQuads_scale (w : ℚ) (src : QP) (conv : Conv) (ks : List QuadCst) (dst : QP) :
    i2bQuads (src.scale w) conv ks (dst.scale w) = (i2bQuads src conv ks dst).map (QP.scale w) := by
  induction ks generalizing dst with
  | nil => rfl
  | cons k ks ih =>
    simp only [i2bQuads, show (src.scale w).vars = src.vars from rfl]
    rw [i2bLin_scaleSrc, i2bQuad_scaleSrc]
    cases i2bLin src conv (k.linear.toDictNames src.vars) [] 0 with
    | error e => rfl
    | ok r =>
      simp only
      cases i2bQuad src conv (k.quadratic.toDictNames src.vars) [] [] 0 with
      | error e => rfl
      | ok t =>
        simp only
        rw [quadraticConstraint_scale]
        generalize dst.quadraticConstraint _ _ _ _ _ = a
        obtain ⟨a, p'⟩ := a
        cases a with
        | error e => rfl
        | ok _ => exact ih p'

theorem intToBin_scale (hw : w ≠ 0) (src : QP) :
    (src.scale w).intToBin = src.intToBin.map fun c => ⟨(c.src.scale w), (c.dst.scale w), c.conv⟩ := by
  unfold QP.intToBin
  simp only [show (src.scale w).numIntegerVars = src.numIntegerVars from rfl,
    show (src.scale w).vars = src.vars from rfl, show (src.scale w).name = src.name from rfl,
    show (src.scale w).lins = src.lins from rfl, show (src.scale w).quads = src.quads from rfl]
  split
  · cases i2bVars src.vars [] (QP.empty src.name) with
    | error e => rfl
    | ok r =>
      simp only
      rw [i2bObjective_scale hw]
      cases i2bObjective src r.1 r.2 with
      | error e => rfl
      | ok d =>
        simp only [Except.map]
        rw [i2bLins_scale]
        cases i2bLins src r.1 src.lins d with
        | error e => rfl
        | ok d =>
          simp only [Except.map]
          rw [i2bQuads_scale]
          cases i2bQuads src r.1 src.quads d <;> rfl
  · rfl

theorem penLinear_scaleD (f r : ℚ) (row lin : Dict Nat) :
    penLinear (w * f) r row (scaleD w lin) = scaleD w (penLinear f r row lin) := by
  induction row generalizing lin with
  | nil => rfl
  | cons p row ih =>
    obtain ⟨j, c⟩ := p
    simp only [penLinear]
    rw [show w * f * -2 * c * r = w * (f * -2 * c * r) by ring, add_scaleD]
    exact ih _

theorem penQuadRow_scaleD (f : ℚ) (j : Nat) (c : ℚ) (row : Dict Nat) (quad : Dict (Nat × Nat)) :
    penQuadRow (w * f) j c row (scaleD w quad) = scaleD w (penQuadRow f j c row quad) := by
  induction row generalizing quad with
  | nil => rfl
  | cons p row ih =>
    obtain ⟨k, c2⟩ := p
    simp only [penQuadRow]
    rw [show w * f * c * c2 = w * (f * c * c2) by ring, add_scaleD]
    exact ih _

theorem penQuad_scaleD (f : ℚ) (all row : Dict Nat) (quad : Dict (Nat × Nat)) :
    penQuad (w * f) all row (scaleD w quad) = scaleD w (penQuad f all row quad) := by
  induction row generalizing quad with
  | nil => rfl
  | cons p row ih =>
    obtain ⟨j, c⟩ := p
    simp only [penQuad]
    rw [penQuadRow_scaleD]
    exact ih _

theorem penLoop_scaleD (f : ℚ) (cs : List LinCst) (t : PenTerms) :
    penLoop (w * f) cs ⟨w * t.offset, scaleD w t.linear, scaleD w t.quadratic⟩ =
      (penLoop f cs t).map fun t => ⟨w * t.offset, scaleD w t.linear, scaleD w t.quadratic⟩ := by
  induction cs generalizing t with
  | nil => rfl
  | cons c cs ih =>
    simp only [penLoop]
    split
    · rfl
    · rw [penLinear_scaleD, penQuad_scaleD, show w * t.offset + w * f * c.rhs ^ 2 = w * (t.offset + f * c.rhs ^ 2) by ring]
      exact ih ⟨_, _, _⟩

theorem toPenalty_scale (hw : w ≠ 0) (v : ℚ) (src : QP) :
    (src.scale w).toPenalty (some (w * v)) = (src.toPenalty (some v)).map fun r => (r.1.scale w, w * r.2) := by
  unfold QP.toPenalty
  simp only [show (src.scale w).vars = src.vars from rfl, show (src.scale w).name = src.name from rfl,
    show (src.scale w).lins = src.lins from rfl, objective_scale,
    QuadExpr.toDict, Bool.false_eq_true, if_false, Option.getD_some]
  cases copyAllVars src.vars (QP.empty src.name) with
  | error e => rfl
  | ok dst =>
    simp only
    have h := penLoop_scaleD (w := w) (src.objective.sense.value * v) src.lins
      ⟨src.objective.constant, src.objective.linear.coeffs, src.objective.quadratic.coeffs⟩
    rw [show src.objective.sense.value * (w * v) = w * (src.objective.sense.value * v) by ring, h]
    cases penLoop (src.objective.sense.value * v) src.lins
      ⟨src.objective.constant, src.objective.linear.coeffs, src.objective.quadratic.coeffs⟩ with
    | error e => rfl
    | ok t =>
      simp only [Except.map]
      rw [linIdx_scaleD, quadIdx_scaleD, setObjective_scale hw]
      generalize dst.setObjective _ _ _ _ = a
      obtain ⟨a, p'⟩ := a
      cases a <;> rfl

/-- The converter after converting the scaled program with the scaled penalty. -/
def QuboState.scale (w : ℚ) (st : QuboState) : QuboState :=
  ⟨st.src.scale w, st.eqs.scale w, ⟨st.i2b.src.scale w, st.i2b.dst.scale w, st.i2b.conv⟩, st.dst.scale w, w * st.pen⟩

theorem toQubo_scale (hw : w ≠ 0) (v : ℚ) (src : QP) :
    (src.scale w).toQubo (some (w * v)) = (src.toQubo (some v)).map (QuboState.scale w) := by
  unfold QP.toQubo
  rw [show quboMsg (src.scale w) = quboMsg src from rfl]
  by_cases hm : (quboMsg src).length > 0
  · rw [if_pos hm, if_pos hm]
    rfl
  · rw [if_neg hm, if_neg hm]
    rw [ineqToEq_scale hw]
    cases src.ineqToEq .integer with
    | error e => rfl
    | ok eqs =>
      simp only [Except.map]
      rw [intToBin_scale hw]
      cases eqs.intToBin with
      | error e => rfl
      | ok i2b =>
        simp only [Except.map]
        rw [toPenalty_scale hw]
        cases i2b.dst.toPenalty (some v) <;> rfl

theorem interpret_scale (w : ℚ) (st : QuboState) : (st.scale w).interpret = st.interpret := rfl

theorem append_scaleD {κ : Type} (a b : Dict κ) : scaleD w (a ++ b) = scaleD w a ++ scaleD w b := List.map_append

theorem isingLinear_scale (n : Nat) (s : ℚ) (d : Dict Nat) (t : Dict Pauli) (o : ℚ) :
    isingLinear n s (scaleD w d) (scaleD w t, w * o) = (isingLinear n s d (t, o)).map fun r => (scaleD w r.1, w * r.2) := by
  induction d generalizing t o with
  | nil => rfl
  | cons q d ih =>
    obtain ⟨i, v⟩ := q
    rw [show scaleD w ((i, v) :: d) = (i, w * v) :: scaleD w d from rfl]
    simp only [isingLinear]
    split
    · rw [show scaleD w t ++ [((zMask1 n i, noMask n), -(w * v * s / 2))] =
          scaleD w (t ++ [((zMask1 n i, noMask n), -(v * s / 2))]) by
        rw [append_scaleD]
        congr 1
        show [_] = [(_, w * _)]
        congr 2
        ring, show w * o + w * v * s / 2 = w * (o + v * s / 2) by ring]
      exact ih _ _
    · rfl

theorem isingQuadratic_scale (n : Nat) (s : ℚ) (d : Dict (Nat × Nat)) (t : Dict Pauli) (o : ℚ) :
    isingQuadratic n s (scaleD w d) (scaleD w t, w * o) =
      (isingQuadratic n s d (t, o)).map fun r => (scaleD w r.1, w * r.2) := by
  induction d generalizing t o with
  | nil => rfl
  | cons q d ih =>
    obtain ⟨⟨i, j⟩, v⟩ := q
    rw [show scaleD w (((i, j), v) :: d) = ((i, j), w * v) :: scaleD w d from rfl]
    simp only [isingQuadratic]
    split
    · have e : w * v * s / 4 = w * (v * s / 4) := by ring
      have one : ∀ (m : List Bool) (c : ℚ), [((m, noMask n), w * c)] = scaleD w [((m, noMask n), c)] := fun _ _ => rfl
      split
      · simp only
        rw [e, ← mul_neg, one, one, ← append_scaleD, ← append_scaleD, ← mul_add, ← mul_add]
        exact ih _ _
      · simp only
        rw [e, ← mul_neg, one, one, one, ← append_scaleD, ← append_scaleD, ← append_scaleD, ← mul_add]
        exact ih _ _
    · rfl

theorem mergeCoeffs_scaleD (d : Dict (Nat × Nat)) : mergeCoeffs (scaleD w d) = scaleD w (mergeCoeffs d) := by
  unfold mergeCoeffs
  suffices h : ∀ acc : Dict (Nat × Nat), (scaleD w d).foldl (fun acc p =>
      if p.1.2 < p.1.1 then Dict.add acc (p.1.2, p.1.1) p.2 else Dict.add acc p.1 p.2) (scaleD w acc) =
      scaleD w (d.foldl (fun acc p =>
        if p.1.2 < p.1.1 then Dict.add acc (p.1.2, p.1.1) p.2 else Dict.add acc p.1 p.2) acc) from h []
  induction d with
  | nil => intro acc; rfl
  | cons p d ih =>
    intro acc
    rw [show scaleD w (p :: d) = (p.1, w * p.2) :: scaleD w d from rfl]
    simp only [List.foldl_cons]
    split
    · rw [add_scaleD]; exact ih _
    · rw [add_scaleD]; exact ih _

/-- The operator multiplied by a number. -/
def QubitOp.scale (w : ℚ) (op : QubitOp) : QubitOp := { op with terms := scaleD w op.terms }

theorem reduceTerms_scale (hw : w ≠ 0) (n : Nat) (t : Dict Pauli) :
    reduceTerms n (scaleD w t) = scaleD w (reduceTerms n t) := by
  have h : ∀ (t acc : Dict Pauli), (scaleD w t).foldl (fun acc p => Dict.add acc p.1 p.2) (scaleD w acc) =
      scaleD w (t.foldl (fun acc p => Dict.add acc p.1 p.2) acc) := by
    intro t
    induction t with
    | nil => intro acc; rfl
    | cons p t ih =>
      intro acc
      show (scaleD w t).foldl _ (Dict.add (scaleD w acc) p.1 (w * p.2)) = _
      rw [add_scaleD]
      exact ih _
  unfold reduceTerms
  rw [show (scaleD w t).foldl (fun acc p => Dict.add acc p.1 p.2) [] = _ from h t []]
  generalize t.foldl (fun acc p => Dict.add acc p.1 p.2) [] = m
  simp only [filter_ne_scaleD hw]
  by_cases h1 : m.length ≤ 1
  · rw [if_pos h1, if_pos (by simpa [scaleD] using h1)]
  · rw [if_neg h1, if_neg (by simpa [scaleD] using h1)]
    by_cases h2 : (m.filter fun p => decide (p.2 ≠ 0)) = []
    · rw [if_pos h2, if_pos (by rw [h2]; rfl)]
      simp [scaleD]
    · rw [if_neg h2, if_neg (show ¬ scaleD w _ = [] from fun h => h2 (List.map_eq_nil_iff.mp h))]

/-- The operator of a program without linear and quadratic terms: the identity. -/
def idOp (n : Nat) : QubitOp := ⟨n, [((noMask n, noMask n), 1)]⟩

theorem toIsing_scale (hw : w ≠ 0) (p : QP) :
    (∀ e, p.toIsing = .error e → (p.scale w).toIsing = .error e) ∧
    ∀ op off, p.toIsing = .ok (op, off) → (p.scale w).toIsing = .ok (op.scale w, w * off) ∨
      op = idOp p.numVars ∧ (p.scale w).toIsing = .ok (op, w * off) := by
  unfold QP.toIsing
  simp only [objective_scale, show (p.scale w).numVars = p.numVars from rfl, show (p.scale w).vars = p.vars from rfl,
    show (p.scale w).lins = p.lins from rfl, show (p.scale w).quads = p.quads from rfl, mergeCoeffs_scaleD]
  split
  · simp
  · split
    · simp
    · have h1 := isingLinear_scale (w := w) p.numVars p.objective.sense.value p.objective.linear.coeffs []
        (0 + p.objective.constant * p.objective.sense.value)
      rw [show w * (0 + p.objective.constant * p.objective.sense.value) =
        0 + w * p.objective.constant * p.objective.sense.value by ring] at h1
      rw [show isingLinear p.numVars p.objective.sense.value (scaleD w p.objective.linear.coeffs)
        ([], 0 + w * p.objective.constant * p.objective.sense.value) = _ from h1]
      cases isingLinear p.numVars p.objective.sense.value p.objective.linear.coeffs
        ([], 0 + p.objective.constant * p.objective.sense.value) with
      | error e => simp [Except.map]
      | ok st =>
        obtain ⟨t, o⟩ := st
        simp only [Except.map]
        rw [isingQuadratic_scale]
        cases isingQuadratic p.numVars p.objective.sense.value (mergeCoeffs p.objective.quadratic.coeffs) (t, o) with
        | error e => simp [Except.map]
        | ok r =>
          obtain ⟨t, o⟩ := r
          simp only [Except.map]
          by_cases ht : t = []
          · subst ht
            simp only [scaleD, List.map_nil, if_true]
            refine ⟨fun e h => by simp at h, fun op off h => Or.inr ?_⟩
            simp only [Except.ok.injEq, Prod.mk.injEq] at h
            obtain ⟨rfl, rfl⟩ := h
            exact ⟨rfl, rfl⟩
          · rw [if_neg ht, if_neg (show ¬ scaleD w t = [] from fun h => ht (List.map_eq_nil_iff.mp h)), reduceTerms_scale hw]
            refine ⟨fun e h => by simp at h, fun op off h => Or.inl ?_⟩
            simp only [Except.ok.injEq, Prod.mk.injEq] at h
            obtain ⟨rfl, rfl⟩ := h
            rfl

theorem evaluate_scale (w : ℚ) (o : Objective) (x : List ℚ) : (o.scale w).evaluate x = (o.evaluate x).map (w * ·) := by
  unfold Objective.evaluate LinExpr.evaluate QuadExpr.evaluate LinExpr.val QuadExpr.val Objective.scale
  simp only [sum_scaleD]
  by_cases h1 : x.length ≠ o.linear.n
  · simp only [if_pos h1]; rfl
  · by_cases h2 : x.length ≠ o.quadratic.n
    · simp only [if_neg h1, if_pos h2]; rfl
    · simp only [if_neg h1, if_neg h2, Except.map]
      congr 1
      ring

theorem feasibilityStatus_scale (w : ℚ) (p : QP) (x : List ℚ) : feasibilityStatus (p.scale w) x = feasibilityStatus p x := rfl

theorem generateSolution_scale (w : ℚ) (b : List Char) (p : QP) (pr : ℚ) :
    generateSolution b (p.scale w) pr = (generateSolution b p pr).map (Sample.scale w) := by
  unfold generateSolution
  cases digitsOf b with
  | error e => rfl
  | ok x =>
    simp only
    rw [show (p.scale w).objective = (p.objective.scale w) from rfl, evaluate_scale]
    cases p.objective.evaluate x <;> rfl

theorem decodeCounts_scale (w : ℚ) (p : QP) (m a : ℚ) (l : List (String × ℚ)) :
    decodeCounts (p.scale w) m a l = (decodeCounts p m a l).map (List.map (Sample.scale w)) := by
  induction l with
  | nil => rfl
  | cons q l ih =>
    obtain ⟨b, c⟩ := q
    simp only [decodeCounts]
    split
    · rfl
    · split
      · rw [generateSolution_scale, ih]
        cases generateSolution b.toList p (c / a) with
        | error e => rfl
        | ok s => cases decodeCounts p m a l <;> rfl
      · exact ih

theorem decodeVector_scale (w : ℚ) (p : QP) (m : ℚ) (n : Nat) (l : List (ℚ × ℚ)) (i : Nat) :
    decodeVector (p.scale w) m n l i = (decodeVector p m n l i).map (List.map (Sample.scale w)) := by
  induction l generalizing i with
  | nil => rfl
  | cons a l ih =>
    simp only [decodeVector]
    split
    · rw [generateSolution_scale, ih]
      cases generateSolution (vectorKey n i) p (ampProb a) with
      | error e => rfl
      | ok s => cases decodeVector p m n l (i + 1) <;> rfl
    · exact ih _

theorem eigenToSolutions_scale (w : ℚ) (e : Eigenstate) (p : QP) (m : ℚ) :
    eigenToSolutions e (p.scale w) m = (eigenToSolutions e p m).map (List.map (Sample.scale w)) := by
  cases e with
  | counts d => exact decodeCounts_scale _ _ _ _ _
  | dictFn d =>
    simp only [eigenToSolutions]
    cases squareAmps d with
    | error e => rfl
    | ok d => exact decodeCounts_scale _ _ _ _ _
  | vector v =>
    simp only [eigenToSolutions]
    split
    · rfl
    · exact decodeVector_scale _ _ _ _ _ _
  | other => rfl

theorem mergeSamples_scale (w : ℚ) (fs : List Interp) (l : List Sample) (prob : Assoc (List ℚ) ℚ) :
    mergeSamples fs (l.map (Sample.scale w)) prob = mergeSamples fs l prob := by
  induction l generalizing prob with
  | nil => rfl
  | cons s l ih =>
    simp only [List.map_cons, mergeSamples, show (s.scale w).x = s.x from rfl,
      show (s.scale w).probability = s.probability from rfl]
    cases interpretAll fs s.x with
    | error e => rfl
    | ok x => exact ih _

theorem evalSamples_scale (w : ℚ) (p : QP) (l : Assoc (List ℚ) ℚ) :
    evalSamples (p.scale w) l = (evalSamples p l).map (List.map (Sample.scale w)) := by
  induction l with
  | nil => rfl
  | cons q l ih =>
    obtain ⟨x, pr⟩ := q
    simp only [evalSamples]
    rw [show (p.scale w).objective = (p.objective.scale w) from rfl, evaluate_scale, feasibilityStatus_scale, ih]
    cases p.objective.evaluate x with
    | error e => rfl
    | ok v =>
      simp only [Except.map]
      cases feasibilityStatus p x with
      | error e => rfl
      | ok st => cases evalSamples p l <;> rfl

theorem interpretSamples_scale (hw : 0 < w) (p : QP) (raw : List Sample) (fs : List Interp) :
    interpretSamples (p.scale w) (raw.map (Sample.scale w)) fs =
      (interpretSamples p raw fs).map (List.map (Sample.scale w)) := by
  unfold interpretSamples
  rw [mergeSamples_scale]
  cases mergeSamples fs raw [] with
  | error e => rfl
  | ok prob =>
    simp only
    rw [evalSamples_scale]
    cases evalSamples p prob with
    | error e => rfl
    | ok l =>
      simp only [Except.map]
      congr 1
      apply sortedBy_map
      intro a b
      simp only [sampleLE, objective_scale, Sample.scale, mul_left_comm _ w, mul_le_mul_iff_right₀ hw]

theorem interpretResult_scale (w : ℚ) (p : QP) (fs : List Interp) (samples raw : List Sample) (x : List ℚ) :
    interpretResult (p.scale w) fs (samples.map (Sample.scale w)) (raw.map (Sample.scale w)) x =
      (interpretResult p fs samples raw x).map (Result.scale w) := by
  unfold interpretResult
  cases interpretAll fs x with
  | error e => rfl
  | ok x =>
    simp only
    rw [show (p.scale w).objective = (p.objective.scale w) from rfl, evaluate_scale, feasibilityStatus_scale]
    cases p.objective.evaluate x with
    | error e => rfl
    | ok v =>
      simp only [Except.map]
      cases feasibilityStatus p x with
      | error e => rfl
      | ok st =>
        simp only [Result.mk?]
        rw [show (p.scale w).vars = p.vars from rfl]
        split <;> rfl

theorem solveInternal_scale (hw : 0 < w) (solver : QubitOp → Option Eigenstate) (op : QubitOp) (q p : QP) (fs : List Interp) :
    solveInternal solver op (q.scale w) (p.scale w) fs = (solveInternal solver op q p fs).map (Result.scale w) := by
  unfold solveInternal
  split
  · rfl
  · cases solver op with
    | none => rfl
    | some e =>
      simp only
      rw [eigenToSolutions_scale]
      cases eigenToSolutions e q (1 / 10 ^ 6) with
      | error e => rfl
      | ok raw =>
        simp only [Except.map, objective_scale]
        rw [sortedBy_map (Sample.scale w) (fun a b =>
          decide (q.objective.sense.value * a.fval ≤ q.objective.sense.value * b.fval)) _
          (fun a b => by simp only [Sample.scale, mul_left_comm _ w, mul_le_mul_iff_right₀ hw])]
        generalize sortedBy _ raw = raw'
        cases raw' with
        | nil => rfl
        | cons s l =>
          simp only [List.map_cons]
          have h1 := interpretSamples_scale hw p (s :: l) fs
          have h2 := fun samples => interpretResult_scale w p fs samples (s :: l) s.x
          simp only [List.map_cons] at h1 h2
          rw [h1]
          cases interpretSamples p (s :: l) fs with
          | error e => rfl
          | ok samples => exact h2 samples

end Verif
