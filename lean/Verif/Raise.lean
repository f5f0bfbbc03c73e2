import Verif.OppositeRecursive
import Verif.OppositeRuns

/-!
# Adding a constant to the objective

Helper lemmas for C109: every function of the model applied to a program and to the program with a constant added to its
objective.
-/

namespace Verif

/-- The objective plus a constant. -/
def Objective.raise (w : ℚ) (o : Objective) : Objective := { o with constant := o.constant + w }

/-- The program whose objective has a constant added. -/
def QP.raise (w : ℚ) (p : QP) : QP := { p with objective := p.objective.raise w }

/-- A sample with a raised value. -/
def Sample.raise (w : ℚ) (s : Sample) : Sample := { s with fval := s.fval + w }

/-- A result with raised values. -/
def Result.raise (w : ℚ) (r : Result) : Result :=
  { r with fval := r.fval.map (· + w), samples := r.samples.map (Sample.raise w), rawSamples := r.rawSamples.map (Sample.raise w) }

/-- An operation that leaves the objective alone does the same to the raised program. -/
def Res.raise {α : Type} (w : ℚ) (r : Res α) : Res α := (r.1, r.2.raise w)

theorem objective_raise (w : ℚ) (p : QP) : (p.raise w).objective =
    ⟨p.objective.constant + w, p.objective.linear, p.objective.quadratic, p.objective.sense⟩ := rfl

theorem setObjective_raise (w : ℚ) (p : QP) (s : ObjSense) (c : ℚ) (l : LinInput) (q : QuadInput) :
    p.setObjective s (c + w) l q =
      match p.setObjective s c l q with
      | (.error e, _) => (.error e, p)
      | (.ok u, d) => (.ok u, d.raise w) := by
  unfold QP.setObjective
  cases LinExpr.ofInput p.varsIndex p.numVars l with
  | error e => rfl
  | ok l => cases QuadExpr.ofInput p.varsIndex p.numVars q <;> rfl

theorem addOneVar_raise (w : ℚ) (p : QP) (s : String) (lb ub : ℚ) (t : VarType) :
    (p.raise w).addOneVar s lb ub t = Res.raise w (p.addOneVar s lb ub t) := by
  unfold QP.addOneVar
  simp only [show (p.raise w).varsIndex = p.varsIndex from rfl, show (p.raise w).numVars = p.numVars from rfl]
  split
  · rfl
  · cases Variable.mk? s lb ub t <;> rfl

theorem addVarsCount_raise (w : ℚ) (s : String) (fmt : KeyFormat) (lb ub : ℚ) (t : VarType) (m k : Nat) (p : QP) :
    QP.addVarsCount s fmt lb ub t m k (p.raise w) = Res.raise w (QP.addVarsCount s fmt lb ub t m k p) := by
  induction m generalizing k p with
  | zero => rfl
  | succ m ih =>
    simp only [QP.addVarsCount, show (p.raise w).varsIndex = p.varsIndex from rfl]
    cases findName p.varsIndex s fmt (p.varsIndex.length + 2) none k with
    | error e => rfl
    | ok r =>
      simp only
      rw [addOneVar_raise]
      generalize p.addOneVar r.1 lb ub t = a
      obtain ⟨a, p'⟩ := a
      cases a with
      | error e => rfl
      | ok v =>
        simp only [Res.raise]
        rw [ih]
        generalize QP.addVarsCount s fmt lb ub t m r.2 p' = b
        obtain ⟨b, p''⟩ := b
        cases b <;> rfl

theorem addVariable_raise (w : ℚ) (p : QP) (lb ub : ℚ) (t : VarType) (s : String) :
    (p.raise w).addVariable lb ub t (some s) = Res.raise w (p.addVariable lb ub t (some s)) := by
  simp only [QP.addVariable, QP.addVariables, show (p.raise w).numVars = p.numVars from rfl, Option.getD_some]
  rw [if_neg (by decide), if_neg (by decide), if_neg (by decide), if_neg (by decide), addVarsCount_raise]
  generalize QP.addVarsCount s (.lit "") lb ub t _ p.numVars p = a
  obtain ⟨a, p'⟩ := a
  cases a with
  | error e => rfl
  | ok l => cases l <;> rfl

theorem linearConstraint_raise (w : ℚ) (p : QP) (l : LinInput) (s : SenseInput) (r : ℚ) (n : Option String) :
    (p.raise w).linearConstraint l s r n = Res.raise w (p.linearConstraint l s r n) := by
  unfold QP.linearConstraint
  simp only [show (p.raise w).linsIndex = p.linsIndex from rfl, show (p.raise w).lins = p.lins from rfl,
    show (p.raise w).varsIndex = p.varsIndex from rfl, show (p.raise w).numVars = p.numVars from rfl]
  cases chooseName p.linsIndex p.lins.length "c" n with
  | error e => rfl
  | ok nm =>
    cases Sense.convert s with
    | error e => rfl
    | ok s =>
      simp only [QP.numVars, QP.raise]
      cases LinExpr.ofInput p.varsIndex p.vars.length l <;> rfl

theorem quadraticConstraint_raise (w : ℚ) (p : QP) (l : LinInput) (q : QuadInput) (s : SenseInput) (r : ℚ)
    (n : Option String) :
    (p.raise w).quadraticConstraint l q s r n = Res.raise w (p.quadraticConstraint l q s r n) := by
  unfold QP.quadraticConstraint
  simp only [show (p.raise w).quadsIndex = p.quadsIndex from rfl, show (p.raise w).quads = p.quads from rfl,
    show (p.raise w).varsIndex = p.varsIndex from rfl, show (p.raise w).numVars = p.numVars from rfl]
  cases chooseName p.quadsIndex p.quads.length "q" n with
  | error e => rfl
  | ok nm =>
    cases Sense.convert s with
    | error e => rfl
    | ok s =>
      simp only [QP.numVars, QP.raise]
      cases LinExpr.ofInput p.varsIndex p.vars.length l with
      | error e => rfl
      | ok l => cases QuadExpr.ofInput p.varsIndex p.vars.length q <;> rfl

theorem calcLinBounds_raise (w : ℚ) (src : QP) (d : Dict String) (acc : ℚ × ℚ) :
    calcLinBounds (src.raise w) d acc = calcLinBounds src d acc := by
  induction d generalizing acc with
  | nil => rfl
  | cons p d ih =>
    obtain ⟨s, v⟩ := p
    simp only [calcLinBounds, show (src.raise w).getVariable (.name s) = src.getVariable (.name s) from rfl]
    cases src.getVariable (.name s) with
    | error e => rfl
    | ok x => exact ih _

theorem slackVar_raise (w : ℚ) (dst : QP) (t : VarType) (n : String) (s : Sense) (r lb ub : ℚ) :
    slackVar (dst.raise w) t n s r lb ub = (slackVar dst t n s r lb ub).map fun a => (a.1, (a.2.raise w)) := by
  unfold slackVar
  cases s with
  | eq => rfl
  | le =>
    simp only
    split
    · rw [addVariable_raise]
      generalize dst.addVariable 0 (r - lb) t (some n) = a
      obtain ⟨a, p'⟩ := a
      cases a <;> rfl
    · rfl
  | ge =>
    simp only
    split
    · rw [addVariable_raise]
      generalize dst.addVariable 0 (ub - r) t (some n) = a
      obtain ⟨a, p'⟩ := a
      cases a <;> rfl
    · rfl

theorem intSlackLin_raise (w : ℚ) (src dst : QP) (lin : Dict String) (s : Sense) (r : ℚ) (n : String) :
    intSlackLin (src.raise w) (dst.raise w) lin s r n = (intSlackLin src dst lin s r n).map (QP.raise w) := by
  unfold intSlackLin
  split
  · rfl
  · rw [calcLinBounds_raise]
    cases calcLinBounds src lin (0, 0) with
    | error e => rfl
    | ok b =>
      simp only
      rw [slackVar_raise]
      cases slackVar dst .integer (n ++ delim ++ "int_slack") s (roundRhs s r) b.1 b.2 with
      | error e => rfl
      | ok a =>
        simp only [Except.map]
        rw [linearConstraint_raise]
        generalize a.2.linearConstraint (linNames (withSlack lin a.1)) (.str "==") (roundRhs s r) (some n) = c
        obtain ⟨c, p'⟩ := c
        cases c <;> rfl

theorem i2eLinOne_raise (w : ℚ) (src dst : QP) (k : LinCst) :
    i2eLinOne .integer (src.raise w) (dst.raise w) k = (i2eLinOne .integer src dst k).map (QP.raise w) := by
  unfold i2eLinOne
  simp only [show (src.raise w).vars = src.vars from rfl]
  split
  · rw [linearConstraint_raise]
    generalize dst.linearConstraint (linNames (k.linear.toDictNames src.vars)) (.sense k.sense) k.rhs (some k.name) = c
    obtain ⟨c, p'⟩ := c
    cases c <;> rfl
  · exact intSlackLin_raise _ _ _ _ _ _ _

theorem i2eLins_raise (w : ℚ) (src : QP) (ks : List LinCst) (dst : QP) :
    i2eLins .integer (src.raise w) ks (dst.raise w) = (i2eLins .integer src ks dst).map (QP.raise w) := by
  induction ks generalizing dst with
  | nil => rfl
  | cons k ks ih =>
    simp only [i2eLins]
    rw [i2eLinOne_raise]
    cases i2eLinOne .integer src dst k with
    | error e => rfl
    | ok d => exact ih d

theorem calcQuadBounds_raise (w : ℚ) (src : QP) (lin : Dict String) (quad : Dict (String × String)) :
    calcQuadBounds (src.raise w) lin quad = calcQuadBounds src lin quad := by
  unfold calcQuadBounds
  rw [calcLinBounds_raise]
  cases calcLinBounds src lin (0, 0) with
  | error e => rfl
  | ok acc =>
    simp only
    induction quad generalizing acc with
    | nil => rfl
    | cons p d ih =>
      obtain ⟨⟨si, sj⟩, v⟩ := p
      simp only [calcQuadBoundsLoop,
        show ∀ s, (src.raise w).getVariable (.name s) = src.getVariable (.name s) from fun _ => rfl]
      cases src.getVariable (.name si) with
      | error e => rfl
      | ok x =>
        cases src.getVariable (.name sj) with
        | error e => rfl
        | ok y => exact ih _

theorem intSlackQuad_raise (w : ℚ) (src dst : QP) (lin : Dict String) (quad : Dict (String × String)) (s : Sense) (r : ℚ)
    (n : String) :
    intSlackQuad (src.raise w) (dst.raise w) lin quad s r n = (intSlackQuad src dst lin quad s r n).map (QP.raise w) := by
  unfold intSlackQuad
  split
  · rfl
  · rw [calcQuadBounds_raise]
    cases calcQuadBounds src lin quad with
    | error e => rfl
    | ok b =>
      simp only
      rw [slackVar_raise]
      cases slackVar dst .integer (n ++ delim ++ "int_slack") s (roundRhs s r) b.1 b.2 with
      | error e => rfl
      | ok a =>
        simp only [Except.map]
        rw [quadraticConstraint_raise]
        generalize a.2.quadraticConstraint _ _ _ _ _ = c
        obtain ⟨c, p'⟩ := c
        cases c <;> rfl

theorem i2eQuadOne_raise (w : ℚ) (src dst : QP) (k : QuadCst) :
    i2eQuadOne .integer (src.raise w) (dst.raise w) k = (i2eQuadOne .integer src dst k).map (QP.raise w) := by
  unfold i2eQuadOne
  simp only [show (src.raise w).vars = src.vars from rfl]
  split
  · rw [quadraticConstraint_raise]
    generalize dst.quadraticConstraint _ _ _ _ _ = c
    obtain ⟨c, p'⟩ := c
    cases c <;> rfl
  · exact intSlackQuad_raise _ _ _ _ _ _ _ _

theorem i2eQuads_raise (w : ℚ) (src : QP) (ks : List QuadCst) (dst : QP) :
    i2eQuads .integer (src.raise w) ks (dst.raise w) = (i2eQuads .integer src ks dst).map (QP.raise w) := by
  induction ks generalizing dst with
  | nil => rfl
  | cons k ks ih =>
    simp only [i2eQuads]
    rw [i2eQuadOne_raise]
    cases i2eQuadOne .integer src dst k with
    | error e => rfl
    | ok d => exact ih d

theorem ineqToEq_raise (w : ℚ) (src : QP) :
    (src.raise w).ineqToEq .integer = (src.ineqToEq .integer).map (QP.raise w) := by
  unfold QP.ineqToEq
  simp only [show (src.raise w).vars = src.vars from rfl, show (src.raise w).name = src.name from rfl,
    show (src.raise w).lins = src.lins from rfl, show (src.raise w).quads = src.quads from rfl]
  cases copyAllVars src.vars (QP.empty src.name) with
  | error e => rfl
  | ok dst =>
    simp only [objective_raise]
    rw [setObjective_raise]
    generalize dst.setObjective _ _ _ _ = a
    obtain ⟨a, p'⟩ := a
    cases a with
    | error e => rfl
    | ok u =>
      simp only
      rw [i2eLins_raise]
      cases i2eLins .integer src src.lins p' with
      | error e => rfl
      | ok d => exact i2eQuads_raise w src src.quads d

theorem i2bLin_raise (w : ℚ) (src : QP) (conv : Conv) (d lin : Dict String) (c : ℚ) :
    i2bLin (src.raise w) conv d lin c = i2bLin src conv d lin c := by
  induction d generalizing lin c with
  | nil => rfl
  | cons p d ih =>
    obtain ⟨s, v⟩ := p
    simp only [i2bLin, show (src.raise w).getVariable (.name s) = src.getVariable (.name s) from rfl]
    cases src.getVariable (.name s) with
    | error e => rfl
    | ok x =>
      simp only
      cases Assoc.get? conv x.name <;> exact ih _ _

theorem i2bQuad_raise (w : ℚ) (src : QP) (conv : Conv) (d quad : Dict (String × String)) (lin : Dict String) (c : ℚ) :
    i2bQuad (src.raise w) conv d quad lin c = i2bQuad src conv d quad lin c := by
  induction d generalizing quad lin c with
  | nil => rfl
  | cons p d ih =>
    obtain ⟨⟨si, sj⟩, v⟩ := p
    simp only [i2bQuad, show ∀ s, (src.raise w).getVariable (.name s) = src.getVariable (.name s) from fun _ => rfl]
    cases src.getVariable (.name si) with
    | error e => rfl
    | ok x =>
      cases src.getVariable (.name sj) with
      | error e => rfl
      | ok y =>
        simp only
        cases Assoc.get? conv x.name <;> cases Assoc.get? conv y.name <;> exact ih _ _ _

theorem i2bObjective_raise (w : ℚ) (src : QP) (conv : Conv) (dst : QP) :
    i2bObjective (src.raise w) conv dst = (i2bObjective src conv dst).map (QP.raise w) := by
  unfold i2bObjective
  simp only [show (src.raise w).vars = src.vars from rfl, objective_raise]
  rw [i2bLin_raise]
  cases i2bLin src conv (src.objective.linear.toDictNames src.vars) [] 0 with
  | error e => rfl
  | ok r =>
    simp only
    rw [i2bQuad_raise]
    cases i2bQuad src conv (src.objective.quadratic.toDictNames src.vars) [] [] 0 with
    | error e => rfl
    | ok t =>
      simp only
      rw [show src.objective.constant + w + r.2 + t.2.2 = src.objective.constant + r.2 + t.2.2 + w by ring,
        setObjective_raise]
      generalize dst.setObjective _ _ _ _ = a
      obtain ⟨a, p'⟩ := a
      cases a <;> rfl

theorem i2bLins_raise (w : ℚ) (src : QP) (conv : Conv) (ks : List LinCst) (dst : QP) :
    i2bLins (src.raise w) conv ks (dst.raise w) = (i2bLins src conv ks dst).map (QP.raise w) := by
  induction ks generalizing dst with
  | nil => rfl
  | cons k ks ih =>
    simp only [i2bLins, show (src.raise w).vars = src.vars from rfl]
    rw [i2bLin_raise]
    cases i2bLin src conv (k.linear.toDictNames src.vars) [] 0 with
    | error e => rfl
    | ok r =>
      simp only
      rw [linearConstraint_raise]
      generalize dst.linearConstraint _ _ _ _ = a
      obtain ⟨a, p'⟩ := a
      cases a with
      | error e => rfl
      | ok _ => exact ih p'

theorem i2bQuads_raise (w : ℚ) (src : QP) (conv : Conv) (ks : List QuadCst) (dst : QP) :
    i2bQuads (src.raise w) conv ks (dst.raise w) = (i2bQuads src conv ks dst).map (QP.raise w) := by
  induction ks generalizing dst with
  | nil => rfl
  | cons k ks ih =>
    simp only [i2bQuads, show (src.raise w).vars = src.vars from rfl]
    rw [i2bLin_raise, i2bQuad_raise]
    cases i2bLin src conv (k.linear.toDictNames src.vars) [] 0 with
    | error e => rfl
    | ok r =>
      simp only
      cases i2bQuad src conv (k.quadratic.toDictNames src.vars) [] [] 0 with
      | error e => rfl
      | ok t =>
        simp only
        rw [quadraticConstraint_raise]
        generalize dst.quadraticConstraint _ _ _ _ _ = a
        obtain ⟨a, p'⟩ := a
        cases a with
        | error e => rfl
        | ok _ => exact ih p'

theorem intToBin_raise (w : ℚ) (src : QP) :
    (src.raise w).intToBin = src.intToBin.map fun c => ⟨(c.src.raise w), (c.dst.raise w), c.conv⟩ := by
  unfold QP.intToBin
  simp only [show (src.raise w).numIntegerVars = src.numIntegerVars from rfl,
    show (src.raise w).vars = src.vars from rfl, show (src.raise w).name = src.name from rfl,
    show (src.raise w).lins = src.lins from rfl, show (src.raise w).quads = src.quads from rfl]
  split
  · cases i2bVars src.vars [] (QP.empty src.name) with
    | error e => rfl
    | ok r =>
      simp only
      rw [i2bObjective_raise]
      cases i2bObjective src r.1 r.2 with
      | error e => rfl
      | ok d =>
        simp only [Except.map]
        rw [i2bLins_raise]
        cases i2bLins src r.1 src.lins d with
        | error e => rfl
        | ok d =>
          simp only [Except.map]
          rw [i2bQuads_raise]
          cases i2bQuads src r.1 src.quads d <;> rfl
  · rfl

theorem autoPenalty_raise (w : ℚ) (src : QP) : autoPenalty (src.raise w) = autoPenalty src := by
  unfold autoPenalty
  simp only [show (src.raise w).lins = src.lins from rfl, objective_raise]

theorem penLoop_raise (w f : ℚ) (cs : List LinCst) (o : ℚ) (l : Dict Nat) (q : Dict (Nat × Nat)) :
    penLoop f cs ⟨o + w, l, q⟩ = (penLoop f cs ⟨o, l, q⟩).map fun t => ⟨t.offset + w, t.linear, t.quadratic⟩ := by
  induction cs generalizing o l q with
  | nil => rfl
  | cons c cs ih =>
    simp only [penLoop]
    split
    · rfl
    · rw [show o + w + f * c.rhs ^ 2 = o + f * c.rhs ^ 2 + w by ring, ih]

theorem toPenalty_raise (w : ℚ) (penalty : Option ℚ) (src : QP) :
    (src.raise w).toPenalty penalty = (src.toPenalty penalty).map fun r => ((r.1.raise w), r.2) := by
  unfold QP.toPenalty
  simp only [autoPenalty_raise]
  simp only [show (src.raise w).vars = src.vars from rfl, show (src.raise w).name = src.name from rfl,
    show (src.raise w).lins = src.lins from rfl,
    objective_raise]
  cases copyAllVars src.vars (QP.empty src.name) with
  | error e => rfl
  | ok dst =>
    simp only
    rw [penLoop_raise]
    cases penLoop (src.objective.sense.value * penalty.getD (autoPenalty src)) src.lins
      ⟨src.objective.constant, src.objective.linear.coeffs, src.objective.quadratic.toDict false⟩ with
    | error e => rfl
    | ok t =>
      simp only [Except.map]
      rw [setObjective_raise]
      generalize dst.setObjective _ _ _ _ = a
      obtain ⟨a, p'⟩ := a
      cases a <;> rfl

/-- The converter after converting the raised program. -/
def QuboState.raise (w : ℚ) (st : QuboState) : QuboState :=
  ⟨st.src.raise w, st.eqs.raise w, ⟨st.i2b.src.raise w, st.i2b.dst.raise w, st.i2b.conv⟩, st.dst.raise w, st.pen⟩

theorem toQubo_raise (w : ℚ) (penalty : Option ℚ) (src : QP) :
    (src.raise w).toQubo penalty = (src.toQubo penalty).map (QuboState.raise w) := by
  unfold QP.toQubo
  rw [show quboMsg (src.raise w) = quboMsg src from rfl]
  by_cases hm : (quboMsg src).length > 0
  · rw [if_pos hm, if_pos hm]
    rfl
  · rw [if_neg hm, if_neg hm]
    rw [ineqToEq_raise]
    cases src.ineqToEq .integer with
    | error e => rfl
    | ok eqs =>
      simp only [Except.map]
      rw [intToBin_raise]
      cases eqs.intToBin with
      | error e => rfl
      | ok i2b =>
        simp only [Except.map]
        rw [toPenalty_raise]
        cases i2b.dst.toPenalty penalty <;> rfl

theorem interpret_raise (w : ℚ) (st : QuboState) : (st.raise w).interpret = st.interpret := rfl

theorem isingLinear_raise (n : Nat) (s : ℚ) (d : Dict Nat) (t : Dict Pauli) (o w : ℚ) :
    isingLinear n s d (t, o + w) = (isingLinear n s d (t, o)).map fun r => (r.1, r.2 + w) := by
  induction d generalizing t o with
  | nil => rfl
  | cons q d ih =>
    obtain ⟨i, v⟩ := q
    simp only [isingLinear]
    split
    · rw [add_right_comm, ih]
    · rfl

theorem isingQuadratic_raise (n : Nat) (s : ℚ) (d : Dict (Nat × Nat)) (t : Dict Pauli) (o w : ℚ) :
    isingQuadratic n s d (t, o + w) = (isingQuadratic n s d (t, o)).map fun r => (r.1, r.2 + w) := by
  induction d generalizing t o with
  | nil => rfl
  | cons q d ih =>
    obtain ⟨⟨i, j⟩, v⟩ := q
    simp only [isingQuadratic]
    split
    · split
      · simp only
        rw [add_right_comm o w, add_right_comm _ w, ih]
      · simp only
        rw [add_right_comm o w, ih]
    · rfl

theorem toIsing_raise (w : ℚ) (p : QP) :
    (p.raise w).toIsing = p.toIsing.map fun r => (r.1, r.2 + p.objective.sense.value * w) := by
  unfold QP.toIsing
  simp only [objective_raise, show (p.raise w).numVars = p.numVars from rfl, show (p.raise w).vars = p.vars from rfl,
    show (p.raise w).lins = p.lins from rfl, show (p.raise w).quads = p.quads from rfl]
  split
  · rfl
  · split
    · rfl
    · rw [show 0 + (p.objective.constant + w) * p.objective.sense.value =
        0 + p.objective.constant * p.objective.sense.value + p.objective.sense.value * w by ring, isingLinear_raise]
      cases isingLinear p.numVars p.objective.sense.value p.objective.linear.coeffs
        ([], 0 + p.objective.constant * p.objective.sense.value) with
      | error e => rfl
      | ok st =>
        obtain ⟨t, o⟩ := st
        simp only [Except.map]
        rw [isingQuadratic_raise]
        cases isingQuadratic p.numVars p.objective.sense.value (mergeCoeffs p.objective.quadratic.coeffs) (t, o) with
        | error e => rfl
        | ok r =>
          simp only [Except.map]
          split <;> rfl

theorem evaluate_raise (w : ℚ) (o : Objective) (x : List ℚ) : (o.raise w).evaluate x = (o.evaluate x).map (· + w) := by
  unfold Objective.evaluate LinExpr.evaluate QuadExpr.evaluate LinExpr.val QuadExpr.val Objective.raise
  by_cases h1 : x.length ≠ o.linear.n
  · simp only [if_pos h1]; rfl
  · by_cases h2 : x.length ≠ o.quadratic.n
    · simp only [if_neg h1, if_pos h2]; rfl
    · simp only [if_neg h1, if_neg h2, Except.map]
      congr 1
      ring

theorem feasibilityStatus_raise (w : ℚ) (p : QP) (x : List ℚ) : feasibilityStatus (p.raise w) x = feasibilityStatus p x := rfl

theorem generateSolution_raise (w : ℚ) (b : List Char) (p : QP) (pr : ℚ) :
    generateSolution b (p.raise w) pr = (generateSolution b p pr).map (Sample.raise w) := by
  unfold generateSolution
  cases digitsOf b with
  | error e => rfl
  | ok x =>
    simp only
    rw [show (p.raise w).objective = (p.objective.raise w) from rfl, evaluate_raise]
    cases p.objective.evaluate x <;> rfl

theorem decodeCounts_raise (w : ℚ) (p : QP) (m a : ℚ) (l : List (String × ℚ)) :
    decodeCounts (p.raise w) m a l = (decodeCounts p m a l).map (List.map (Sample.raise w)) := by
  induction l with
  | nil => rfl
  | cons q l ih =>
    obtain ⟨b, c⟩ := q
    simp only [decodeCounts]
    split
    · rfl
    · split
      · rw [generateSolution_raise, ih]
        cases generateSolution b.toList p (c / a) with
        | error e => rfl
        | ok s => cases decodeCounts p m a l <;> rfl
      · exact ih

theorem decodeVector_raise (w : ℚ) (p : QP) (m : ℚ) (n : Nat) (l : List (ℚ × ℚ)) (i : Nat) :
    decodeVector (p.raise w) m n l i = (decodeVector p m n l i).map (List.map (Sample.raise w)) := by
  induction l generalizing i with
  | nil => rfl
  | cons a l ih =>
    simp only [decodeVector]
    split
    · rw [generateSolution_raise, ih]
      cases generateSolution (vectorKey n i) p (ampProb a) with
      | error e => rfl
      | ok s => cases decodeVector p m n l (i + 1) <;> rfl
    · exact ih _

theorem eigenToSolutions_raise (w : ℚ) (e : Eigenstate) (p : QP) (m : ℚ) :
    eigenToSolutions e (p.raise w) m = (eigenToSolutions e p m).map (List.map (Sample.raise w)) := by
  cases e with
  | counts d => exact decodeCounts_raise _ _ _ _ _
  | dictFn d =>
    simp only [eigenToSolutions]
    cases squareAmps d with
    | error e => rfl
    | ok d => exact decodeCounts_raise _ _ _ _ _
  | vector v =>
    simp only [eigenToSolutions]
    split
    · rfl
    · exact decodeVector_raise _ _ _ _ _ _
  | other => rfl

theorem mergeSamples_raise (w : ℚ) (fs : List Interp) (l : List Sample) (prob : Assoc (List ℚ) ℚ) :
    mergeSamples fs (l.map (Sample.raise w)) prob = mergeSamples fs l prob := by
  induction l generalizing prob with
  | nil => rfl
  | cons s l ih =>
    simp only [List.map_cons, mergeSamples, show (s.raise w).x = s.x from rfl,
      show (s.raise w).probability = s.probability from rfl]
    cases interpretAll fs s.x with
    | error e => rfl
    | ok x => exact ih _

theorem evalSamples_raise (w : ℚ) (p : QP) (l : Assoc (List ℚ) ℚ) :
    evalSamples (p.raise w) l = (evalSamples p l).map (List.map (Sample.raise w)) := by
  induction l with
  | nil => rfl
  | cons q l ih =>
    obtain ⟨x, pr⟩ := q
    simp only [evalSamples]
    rw [show (p.raise w).objective = (p.objective.raise w) from rfl, evaluate_raise, feasibilityStatus_raise, ih]
    cases p.objective.evaluate x with
    | error e => rfl
    | ok v =>
      simp only [Except.map]
      cases feasibilityStatus p x with
      | error e => rfl
      | ok st => cases evalSamples p l <;> rfl

theorem interpretSamples_raise (w : ℚ) (p : QP) (raw : List Sample) (fs : List Interp) :
    interpretSamples (p.raise w) (raw.map (Sample.raise w)) fs =
      (interpretSamples p raw fs).map (List.map (Sample.raise w)) := by
  unfold interpretSamples
  rw [mergeSamples_raise]
  cases mergeSamples fs raw [] with
  | error e => rfl
  | ok prob =>
    simp only
    rw [evalSamples_raise]
    cases evalSamples p prob with
    | error e => rfl
    | ok l =>
      simp only [Except.map]
      congr 1
      apply sortedBy_map
      intro a b
      simp only [sampleLE, objective_raise, Sample.raise, mul_add, add_le_add_iff_right]

theorem interpretResult_raise (w : ℚ) (p : QP) (fs : List Interp) (samples raw : List Sample) (x : List ℚ) :
    interpretResult (p.raise w) fs (samples.map (Sample.raise w)) (raw.map (Sample.raise w)) x =
      (interpretResult p fs samples raw x).map (Result.raise w) := by
  unfold interpretResult
  cases interpretAll fs x with
  | error e => rfl
  | ok x =>
    simp only
    rw [show (p.raise w).objective = (p.objective.raise w) from rfl, evaluate_raise, feasibilityStatus_raise]
    cases p.objective.evaluate x with
    | error e => rfl
    | ok v =>
      simp only [Except.map]
      cases feasibilityStatus p x with
      | error e => rfl
      | ok st =>
        simp only [Result.mk?]
        rw [show (p.raise w).vars = p.vars from rfl]
        split <;> rfl

theorem solveInternal_raise (w : ℚ) (solver : QubitOp → Option Eigenstate) (op : QubitOp) (q p : QP) (fs : List Interp) :
    solveInternal solver op (q.raise w) (p.raise w) fs = (solveInternal solver op q p fs).map (Result.raise w) := by
  unfold solveInternal
  split
  · rfl
  · cases solver op with
    | none => rfl
    | some e =>
      simp only
      rw [eigenToSolutions_raise]
      cases eigenToSolutions e q (1 / 10 ^ 6) with
      | error e => rfl
      | ok raw =>
        simp only [Except.map, objective_raise]
        rw [sortedBy_map (Sample.raise w) (fun a b =>
          decide (q.objective.sense.value * a.fval ≤ q.objective.sense.value * b.fval)) _
          (fun a b => by simp only [Sample.raise, mul_add, add_le_add_iff_right])]
        generalize sortedBy _ raw = raw'
        cases raw' with
        | nil => rfl
        | cons s l =>
          simp only [List.map_cons]
          have h1 := interpretSamples_raise w p (s :: l) fs
          have h2 := fun samples => interpretResult_raise w p fs samples (s :: l) s.x
          simp only [List.map_cons] at h1 h2
          rw [h1]
          cases interpretSamples p (s :: l) fs with
          | error e => rfl
          | ok samples => exact h2 samples

theorem subsConstants_raise (w : ℚ) (src : QP) (l : List (Key × ℚ)) (s : Subs) :
    subsConstants (src.raise w) l s = subsConstants src l s := by
  induction l generalizing s with
  | nil => rfl
  | cons p l ih =>
    obtain ⟨i, v⟩ := p
    simp only [subsConstants, show (src.raise w).getVariable i = src.getVariable i from rfl, ih]

theorem subsVariables_raise (w : ℚ) (src : QP) (l : List (Key × Key × ℚ)) (s : Subs) :
    subsVariables (src.raise w) l s = subsVariables src l s := by
  induction l generalizing s with
  | nil => rfl
  | cons p l ih =>
    obtain ⟨i, j, v⟩ := p
    simp only [subsVariables, show ∀ k, (src.raise w).getVariable k = src.getVariable k from fun _ => rfl, ih]

theorem subsDict_raise (w : ℚ) (src : QP) (c : List (Key × ℚ)) (l : List (Key × Key × ℚ)) :
    subsDict (src.raise w) c l = subsDict src c l := by
  simp only [subsDict, subsConstants_raise, subsVariables_raise]

theorem adjustBounds_raise (w : ℚ) (src : QP) (l : Subs) (dst : QP) (f : Bool) :
    adjustBounds (src.raise w) l dst f = adjustBounds src l dst f := by
  induction l generalizing dst f with
  | nil => rfl
  | cons p l ih =>
    obtain ⟨i, j, v⟩ := p
    simp only [adjustBounds, show ∀ k, (src.raise w).getVariable k = src.getVariable k from fun _ => rfl, ih]

theorem substVars_raise (w : ℚ) (src : QP) (subs : Subs) (dst : QP) :
    substVars (src.raise w) subs dst = substVars src subs dst := by
  simp only [substVars, show (src.raise w).vars = src.vars from rfl, adjustBounds_raise]

theorem substObjective_raise (w : ℚ) (src : QP) (subs : Subs) (dst : QP) :
    substObjective (src.raise w) subs dst = (substObjective src subs dst).map (QP.raise w) := by
  unfold substObjective
  simp only [objective_raise]
  rw [show substLinear (src.raise w) dst subs src.objective.linear = substLinear src dst subs src.objective.linear from rfl]
  cases substLinear src dst subs src.objective.linear with
  | error e => rfl
  | ok r =>
    simp only
    rw [show substQuadratic (src.raise w) dst subs src.objective.quadratic =
      substQuadratic src dst subs src.objective.quadratic from rfl]
    cases substQuadratic src dst subs src.objective.quadratic with
    | error e => rfl
    | ok t =>
      simp only
      rw [show ([src.objective.constant + w] ++ r.1 ++ t.1).sum = ([src.objective.constant] ++ r.1 ++ t.1).sum + w by
          simp only [List.sum_append, List.sum_singleton]; ring, setObjective_raise]
      generalize dst.setObjective _ _ _ _ = a
      obtain ⟨a, p'⟩ := a
      cases a <;> rfl

theorem substLins_raise (w : ℚ) (src : QP) (subs : Subs) (ks : List LinCst) (dst : QP) (f : Bool) :
    substLins (src.raise w) subs ks (dst.raise w) f =
      (substLins src subs ks dst f).map fun r => ((r.1.raise w), r.2) := by
  induction ks generalizing dst f with
  | nil => rfl
  | cons k ks ih =>
    simp only [substLins]
    rw [show substLinear (src.raise w) (dst.raise w) subs k.linear = substLinear src dst subs k.linear from rfl]
    cases substLinear src dst subs k.linear with
    | error e => rfl
    | ok r =>
      simp only
      split
      · rw [linearConstraint_raise]
        generalize dst.linearConstraint _ _ _ _ = a
        obtain ⟨a, p'⟩ := a
        cases a with
        | error e => rfl
        | ok _ => exact ih p' f
      · exact ih dst _

theorem substQuads_raise (w : ℚ) (src : QP) (subs : Subs) (ks : List QuadCst) (dst : QP) (f : Bool) :
    substQuads (src.raise w) subs ks (dst.raise w) f =
      (substQuads src subs ks dst f).map fun r => ((r.1.raise w), r.2) := by
  induction ks generalizing dst f with
  | nil => rfl
  | cons k ks ih =>
    simp only [substQuads]
    rw [show substLinear (src.raise w) (dst.raise w) subs k.linear = substLinear src dst subs k.linear from rfl,
      show substQuadratic (src.raise w) (dst.raise w) subs k.quadratic = substQuadratic src dst subs k.quadratic from rfl,
      show (dst.raise w).numVars = dst.numVars from rfl, show (dst.raise w).lins = dst.lins from rfl]
    cases substLinear src dst subs k.linear with
    | error e => rfl
    | ok r =>
      simp only
      cases substQuadratic src dst subs k.quadratic with
      | error e => rfl
      | ok t =>
        simp only
        split
        · rw [quadraticConstraint_raise]
          generalize dst.quadraticConstraint _ _ _ _ _ = a
          obtain ⟨a, p'⟩ := a
          cases a with
          | error e => rfl
          | ok _ => exact ih p' f
        · split
          · rw [linearConstraint_raise]
            generalize dst.linearConstraint _ _ _ _ = a
            obtain ⟨a, p'⟩ := a
            cases a with
            | error e => rfl
            | ok _ => exact ih p' f
          · exact ih dst _

/-- Substitution in the raised program. -/
theorem substitute_raise (w : ℚ) (src : QP) (c : List (Key × ℚ)) (l : List (Key × Key × ℚ)) :
    (src.raise w).substitute c l = (src.substitute c l).map (QP.raise w) := by
  unfold QP.substitute
  rw [subsDict_raise]
  cases subsDict src c l with
  | error e => rfl
  | ok subs =>
    simp only
    rw [substVars_raise, show (src.raise w).name = src.name from rfl]
    cases substVars src subs (QP.empty src.name) with
    | error e => rfl
    | ok r =>
      simp only
      rw [substObjective_raise]
      cases substObjective src subs r.1 with
      | error e => rfl
      | ok dst =>
        simp only [Except.map]
        rw [substLins_raise, show (src.raise w).lins = src.lins from rfl]
        cases substLins src subs src.lins dst true with
        | error e => rfl
        | ok d =>
          simp only [Except.map]
          rw [substQuads_raise, show (src.raise w).quads = src.quads from rfl]
          cases substQuads src subs src.quads d.1 true <;> rfl

theorem shiftProgram_raise (w : ℚ) (p : QP) (i : Nat) :
    shiftProgram (p.raise w) i = (shiftProgram p i).map (QP.raise w) := by
  unfold shiftProgram
  simp only [objective_raise, show (p.raise w).varsIndex = p.varsIndex from rfl,
    show (p.raise w).numVars = p.numVars from rfl]
  cases p.objective.linear.getItem p.varsIndex (.idx i) with
  | error e => rfl
  | ok c =>
    cases p.objective.quadratic.getItem p.varsIndex (.idx i) (.idx i) with
    | error e => rfl
    | ok d =>
      simp only
      cases shiftLinear p.objective.quadratic p.varsIndex i p.numVars 0 p.objective.linear with
      | error e => rfl
      | ok l =>
        simp only [Except.map, QP.raise, Objective.raise]
        rw [show p.objective.constant + w + c + d = p.objective.constant + c + d + w by ring]

theorem correlation_raise (w : ℚ) (l : List Sample) (i j : Nat) :
    correlation (l.map (Sample.raise w)) i j = correlation l i j := by
  simp only [correlation, List.foldl_map]
  rfl

theorem correlationSize_raise (w : ℚ) (l : List Sample) : correlationSize (l.map (Sample.raise w)) = correlationSize l := by
  cases l <;> rfl

theorem strongest_raise (w : ℚ) (l : List Sample) (n : Nat) : strongest (l.map (Sample.raise w)) n = strongest l n := by
  simp only [strongest, absCorrelation, correlation_raise]

theorem reduceStep_raise (w : ℚ) (l : List Sample) (p : QP) :
    reduceStep (l.map (Sample.raise w)) (p.raise w) =
      (reduceStep l p).map fun r => ((r.1.raise w), (r.2.1.raise w), r.2.2) := by
  unfold reduceStep
  rw [correlationSize_raise]
  cases correlationSize l with
  | error e => rfl
  | ok n =>
    simp only
    rw [strongest_raise]
    cases strongest l n with
    | error e => rfl
    | ok r =>
      obtain ⟨i, j⟩ := r
      simp only [show (p.raise w).vars = p.vars from rfl, correlation_raise]
      cases p.vars[i]? with
      | none => rfl
      | some vi =>
        cases p.vars[j]? with
        | none => rfl
        | some vj =>
          simp only
          split
          · rw [substitute_raise]
            cases p.substitute [] [(.idx i, .idx j, 1)] with
            | error e => rfl
            | ok q =>
              simp only [Except.map, show (q.raise w).status = q.status from rfl]
              split <;> rfl
          · rw [shiftProgram_raise]
            cases shiftProgram p i with
            | error e => rfl
            | ok p' =>
              simp only [Except.map]
              rw [substitute_raise]
              cases p'.substitute [] [(.idx i, .idx j, -1)] with
              | error e => rfl
              | ok q =>
                simp only [Except.map, show (q.raise w).status = q.status from rfl]
                split <;> rfl

theorem reduceLoop_raise (w : ℚ) {solver : Nat → QP → Except Err Result}
    (hs : ∀ t p, solver t (p.raise w) = (solver t p).map (Result.raise w)) (m fuel t : Nat) (p : QP) (reps : Replacements) :
    reduceLoop solver m fuel t (p.raise w) reps =
      (reduceLoop solver m fuel t p reps).map fun r => r.map fun r => ((r.1.raise w), r.2) := by
  induction fuel generalizing t p reps with
  | zero => rfl
  | succ fuel ih =>
    simp only [reduceLoop, show (p.raise w).numVars = p.numVars from rfl]
    split
    · rw [hs]
      cases solver t p with
      | error e => rfl
      | ok res =>
        simp only [Except.map, show (res.raise w).samples = res.samples.map (Sample.raise w) from rfl]
        rw [reduceStep_raise]
        cases reduceStep res.samples p with
        | error e => rfl
        | ok r => exact ih _ _ _
    · rfl

/-- The run of the recursive optimizer on the raised program. -/
def RecResult.raise (w : ℚ) (r : RecResult) : RecResult :=
  { r with result := r.result.raise w, reduced := r.reduced.raise w, reducedResult := r.reducedResult.raise w,
           callers := r.callers.raise w }

theorem recursiveSolve_raise (w : ℚ) {solver : Nat → QP → Except Err Result} {last : QP → Except Err Result}
    (hs : ∀ t p, solver t (p.raise w) = (solver t p).map (Result.raise w))
    (hl : ∀ p, last (p.raise w) = (last p).map (Result.raise w)) (m : Nat) (penalty : Option ℚ) (p : QP) (fuel : Nat) :
    recursiveSolve solver last m [quboConverter penalty] (p.raise w) fuel =
      (recursiveSolve solver last m [quboConverter penalty] p fuel).map fun r => r.map (RecResult.raise w) := by
  unfold recursiveSolve
  rw [show quboMsg (p.raise w) = quboMsg p from rfl]
  have hc : ∀ q : QP, callersProgram solver m [quboConverter penalty] q = q := fun q => by
    rw [callersProgram, if_neg (by simp)]
  rw [hc, hc]
  by_cases hm : (quboMsg p).length > 0
  · rw [if_pos hm, if_pos hm]; rfl
  · rw [if_neg hm, if_neg hm]
    simp only [convertAll, quboConverter]
    rw [toQubo_raise]
    cases p.toQubo penalty with
    | error e => rfl
    | ok st =>
      simp only [Except.map]
      rw [interpret_raise, show (st.raise w).dst = (st.dst.raise w) from rfl, reduceLoop_raise w hs]
      cases reduceLoop solver m fuel 0 st.dst [] with
      | none => rfl
      | some a =>
        cases a with
        | error e => rfl
        | ok r =>
          obtain ⟨final, reps⟩ := r
          simp only [Option.map_some, Except.map]
          rw [hl]
          cases last final with
          | error e => rfl
          | ok res =>
            simp only [Except.map, show (res.raise w).x = res.x from rfl]
            rw [show unroll reps (final.raise w) (st.dst.raise w) res.x = unroll reps final st.dst res.x from rfl]
            cases unroll reps final st.dst res.x with
            | error e => rfl
            | ok x =>
              simp only
              have h := interpretResult_raise w p [st.interpret] [] [] x
              simp only [List.map_nil] at h
              rw [h]
              cases interpretResult p [st.interpret] [] [] x <;> rfl

end Verif
