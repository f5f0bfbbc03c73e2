import Verif.Result

/-!
# Programs with the opposite objective

The program that maximises `-f` has the solutions of the program that minimises `f`.  Specification of the opposite
program and lemmas: every step of the way from a program to the result of `MinimumEigenOptimizer` commutes with it.
-/

namespace Verif

/-- The same dictionary with all values negated. -/
def negD {κ : Type} (d : Dict κ) : Dict κ := d.map fun p => (p.1, -p.2)

/-- The other sense. -/
def ObjSense.flip : ObjSense → ObjSense
  | .minimize => .maximize
  | .maximize => .minimize

/-- The objective `-f` with the other sense. -/
def Objective.opposite (o : Objective) : Objective :=
  ⟨-o.constant, ⟨o.linear.n, negD o.linear.coeffs⟩, ⟨o.quadratic.n, negD o.quadratic.coeffs⟩, o.sense.flip⟩

/-- The program with objective `-f` and the other sense; variables and constraints are the same. -/
def QP.opposite (p : QP) : QP := { p with objective := p.objective.opposite }

/-- The input with all linear coefficients negated. -/
def LinInput.neg : LinInput → LinInput
  | .dict l => .dict (l.map fun p => (p.1, -p.2))
  | .list l => .list (l.map fun v => -v)
  | .sparse e => .sparse ⟨e.n, negD e.coeffs⟩

/-- The input with all quadratic coefficients negated. -/
def QuadInput.neg : QuadInput → QuadInput
  | .dict l => .dict (l.map fun p => (p.1, -p.2))
  | .matrix rows => .matrix (rows.map fun r => r.map fun v => -v)
  | .sparse e => .sparse ⟨e.n, negD e.coeffs⟩

/-- The sample with the value negated. -/
def Sample.opposite (s : Sample) : Sample := { s with fval := -s.fval }

/-- The result with all objective values negated. -/
def Result.opposite (r : Result) : Result :=
  { r with fval := r.fval.map (-·), samples := r.samples.map Sample.opposite,
           rawSamples := r.rawSamples.map Sample.opposite }

theorem flip_value (s : ObjSense) : s.flip.value = -s.value := by cases s <;> simp [ObjSense.flip, ObjSense.value]

section dict
variable {κ : Type} [DecidableEq κ]

theorem get?_negD (d : Dict κ) (k : κ) : Assoc.get? (negD d) k = (Assoc.get? d k).map (-·) := by
  induction d with
  | nil => rfl
  | cons p d ih =>
    simp only [negD, List.map_cons, Assoc.get?] at ih ⊢
    split
    · rfl
    · exact ih

theorem get_negD (d : Dict κ) (k : κ) : Dict.get (negD d) k = -Dict.get d k := by
  unfold Dict.get
  rw [get?_negD]
  cases Assoc.get? d k <;> simp

theorem set_negD (d : Dict κ) (k : κ) (v : ℚ) : Assoc.set (negD d) k (-v) = negD (Assoc.set d k v) := by
  induction d with
  | nil => rfl
  | cons p d ih =>
    simp only [negD, List.map_cons, Assoc.set] at ih ⊢
    split
    · rfl
    · rw [List.map_cons, ← ih]

theorem erase_negD (d : Dict κ) (k : κ) : Assoc.erase (negD d) k = negD (Assoc.erase d k) := by
  induction d with
  | nil => rfl
  | cons p d ih =>
    simp only [negD, List.map_cons, Assoc.erase] at ih ⊢
    split
    · rfl
    · rw [List.map_cons, ← ih]

theorem add_negD (d : Dict κ) (k : κ) (v : ℚ) : Dict.add (negD d) k (-v) = negD (Dict.add d k v) := by
  unfold Dict.add
  rw [get_negD, ← neg_add, set_negD]

theorem dokSet_negD (d : Dict κ) (k : κ) (v : ℚ) : Dict.dokSet (negD d) k (-v) = negD (Dict.dokSet d k v) := by
  unfold Dict.dokSet
  by_cases h : v = 0
  · rw [if_pos h, if_pos (by rw [h, neg_zero]), erase_negD]
  · rw [if_neg h, if_neg (neg_ne_zero.mpr h), set_negD]

theorem dokPlus_negD (a b : Dict κ) : dokPlus (negD a) (negD b) = negD (dokPlus a b) := by
  unfold dokPlus
  induction b generalizing a with
  | nil => rfl
  | cons p b ih =>
    show List.foldl _ (Dict.add (negD a) p.1 (-p.2)) (negD b) = _
    rw [add_negD]
    exact ih _

omit [DecidableEq κ] in
theorem filter_negD (d : Dict κ) (f : κ → Bool) :
    (negD d).filter (fun p => f p.1) = negD (d.filter fun p => f p.1) := by
  unfold negD
  rw [List.filter_map]
  rfl

omit [DecidableEq κ] in
theorem filter_ne_negD (d : Dict κ) :
    (negD d).filter (fun p => decide (p.2 ≠ 0)) = negD (d.filter fun p => decide (p.2 ≠ 0)) := by
  unfold negD
  rw [List.filter_map]
  congr 1
  apply List.filter_congr
  intro p _
  simp

theorem csrMinus_negD (a b : Dict κ) : csrMinus (negD a) (negD b) = negD (csrMinus a b) := by
  unfold csrMinus
  rw [← filter_ne_negD]
  congr 1
  induction b generalizing a with
  | nil => rfl
  | cons p b ih =>
    show List.foldl _ (Dict.add (negD a) p.1 (- -p.2)) (negD b) = _
    rw [add_negD]
    exact ih _

omit [DecidableEq κ] in
theorem sum_negD (d : Dict κ) (f : κ → ℚ) : Dict.sum (negD d) f = -Dict.sum d f := by
  induction d with
  | nil => rfl
  | cons p d ih =>
    show -p.2 * f p.1 + Dict.sum (negD d) f = -(p.2 * f p.1 + Dict.sum d f)
    rw [ih]
    ring

omit [DecidableEq κ] in
theorem values_abs_negD (d : Dict κ) : (negD d).values.map abs = d.values.map abs := by
  unfold Dict.values negD
  simp [Function.comp_def]

end dict

theorem transpose_negD (d : Dict (Nat × Nat)) : transpose (negD d) = negD (transpose d) := by
  unfold transpose negD
  simp [Function.comp_def]

theorem triangle_negD (d : Dict (Nat × Nat)) : triangle (negD d) = negD (triangle d) := by
  unfold triangle
  simp only
  rw [filter_negD d fun k => decide (k.2 < k.1), transpose_negD, dokPlus_negD, csrMinus_negD]

theorem linOfEntries_neg (vi : Assoc String Nat) (n : Nat) (l : List (Key × ℚ)) (acc : Dict Nat) :
    linOfEntries vi n (l.map fun p => (p.1, -p.2)) (negD acc) = (linOfEntries vi n l acc).map negD := by
  induction l generalizing acc with
  | nil => rfl
  | cons p l ih =>
    obtain ⟨k, v⟩ := p
    simp only [List.map_cons, linOfEntries]
    cases resolve vi n k with
    | error e => rfl
    | ok i =>
      simp only
      rw [dokSet_negD]
      exact ih _

theorem quadOfEntries_neg (vi : Assoc String Nat) (n : Nat) (l : List ((Key × Key) × ℚ)) (acc : Dict (Nat × Nat)) :
    quadOfEntries vi n (l.map fun p => (p.1, -p.2)) (negD acc) = (quadOfEntries vi n l acc).map negD := by
  induction l generalizing acc with
  | nil => rfl
  | cons p l ih =>
    obtain ⟨⟨k, k'⟩, v⟩ := p
    simp only [List.map_cons, quadOfEntries]
    cases resolve vi n k with
    | error e => rfl
    | ok i =>
      cases resolve vi n k' with
      | error e => rfl
      | ok j =>
        simp only
        rw [dokSet_negD]
        exact ih _

theorem linOfList_neg (l : List ℚ) : linOfList (l.map fun v => -v) = negD (linOfList l) := by
  unfold linOfList
  rw [← filter_ne_negD]
  congr 1
  unfold negD
  rw [List.zipIdx_map]
  simp [Function.comp_def]

theorem quadOfMatrix_neg (rows : List (List ℚ)) :
    quadOfMatrix (rows.map fun r => r.map fun v => -v) = negD (quadOfMatrix rows) := by
  unfold quadOfMatrix
  rw [← filter_ne_negD]
  congr 1
  unfold negD
  rw [List.zipIdx_map]
  simp only [List.map_flatMap, List.flatMap_map, Function.comp_def, Prod.map]
  congr 1
  funext r
  simp [List.zipIdx_map, Function.comp_def]

theorem linExpr_neg (vi : Assoc String Nat) (n : Nat) (l : LinInput) :
    LinExpr.ofInput vi n l.neg = (LinExpr.ofInput vi n l).map fun e => ⟨e.n, negD e.coeffs⟩ := by
  cases l with
  | dict l =>
    simp only [LinInput.neg, LinExpr.ofInput]
    rw [show linOfEntries vi n (l.map fun p => (p.1, -p.2)) [] = _ from linOfEntries_neg vi n l []]
    cases linOfEntries vi n l [] <;> rfl
  | list l => simp [LinInput.neg, LinExpr.ofInput, linOfList_neg, Except.map]
  | sparse e => rfl

theorem quadExpr_neg (vi : Assoc String Nat) (n : Nat) (l : QuadInput) :
    QuadExpr.ofInput vi n l.neg = (QuadExpr.ofInput vi n l).map fun e => ⟨e.n, negD e.coeffs⟩ := by
  cases l with
  | dict l =>
    simp only [QuadInput.neg, QuadExpr.ofInput]
    rw [show quadOfEntries vi n (l.map fun p => (p.1, -p.2)) [] = _ from quadOfEntries_neg vi n l []]
    cases quadOfEntries vi n l [] with
    | error e => rfl
    | ok d => simp [Except.map, triangle_negD]
  | matrix rows =>
    simp only [QuadInput.neg, QuadExpr.ofInput, List.all_map, Function.comp_def, List.length_map]
    split
    · simp [Except.map, quadOfMatrix_neg, triangle_negD]
    · rfl
  | sparse e => simp [QuadInput.neg, QuadExpr.ofInput, Except.map, triangle_negD]

/-- An operation that leaves the objective alone does the same to the opposite program. -/
def Res.opposite {α : Type} (r : Res α) : Res α := (r.1, r.2.opposite)

theorem setObjective_opposite (p : QP) (s : ObjSense) (c : ℚ) (l : LinInput) (q : QuadInput) :
    p.opposite.setObjective s.flip (-c) l.neg q.neg = Res.opposite (p.setObjective s c l q) := by
  unfold QP.setObjective
  simp only [show p.opposite.varsIndex = p.varsIndex from rfl, show p.opposite.numVars = p.numVars from rfl]
  rw [linExpr_neg, quadExpr_neg]
  cases LinExpr.ofInput p.varsIndex p.numVars l with
  | error e => rfl
  | ok l => cases QuadExpr.ofInput p.varsIndex p.numVars q <;> rfl

theorem addOneVar_opposite (p : QP) (s : String) (lb ub : ℚ) (t : VarType) :
    p.opposite.addOneVar s lb ub t = Res.opposite (p.addOneVar s lb ub t) := by
  unfold QP.addOneVar
  simp only [show p.opposite.varsIndex = p.varsIndex from rfl, show p.opposite.numVars = p.numVars from rfl]
  split
  · rfl
  · cases Variable.mk? s lb ub t <;> rfl

theorem addVarsCount_opposite (s : String) (fmt : KeyFormat) (lb ub : ℚ) (t : VarType) (m k : Nat) (p : QP) :
    QP.addVarsCount s fmt lb ub t m k p.opposite = Res.opposite (QP.addVarsCount s fmt lb ub t m k p) := by
  induction m generalizing k p with
  | zero => rfl
  | succ m ih =>
    simp only [QP.addVarsCount, show p.opposite.varsIndex = p.varsIndex from rfl]
    cases findName p.varsIndex s fmt (p.varsIndex.length + 2) none k with
    | error e => rfl
    | ok r =>
      simp only
      rw [addOneVar_opposite]
      generalize p.addOneVar r.1 lb ub t = a
      obtain ⟨a, p'⟩ := a
      cases a with
      | error e => rfl
      | ok v =>
        simp only [Res.opposite]
        rw [ih]
        generalize QP.addVarsCount s fmt lb ub t m r.2 p' = b
        obtain ⟨b, p''⟩ := b
        cases b <;> rfl

theorem addVariable_opposite (p : QP) (lb ub : ℚ) (t : VarType) (s : String) :
    p.opposite.addVariable lb ub t (some s) = Res.opposite (p.addVariable lb ub t (some s)) := by
  simp only [QP.addVariable, QP.addVariables, show p.opposite.numVars = p.numVars from rfl, Option.getD_some]
  rw [if_neg (by decide), if_neg (by decide), if_neg (by decide), if_neg (by decide), addVarsCount_opposite]
  generalize QP.addVarsCount s (.lit "") lb ub t _ p.numVars p = a
  obtain ⟨a, p'⟩ := a
  cases a with
  | error e => rfl
  | ok l => cases l <;> rfl

theorem linearConstraint_opposite (p : QP) (l : LinInput) (s : SenseInput) (r : ℚ) (n : Option String) :
    p.opposite.linearConstraint l s r n = Res.opposite (p.linearConstraint l s r n) := by
  unfold QP.linearConstraint
  simp only [show p.opposite.linsIndex = p.linsIndex from rfl, show p.opposite.lins = p.lins from rfl,
    show p.opposite.varsIndex = p.varsIndex from rfl, show p.opposite.numVars = p.numVars from rfl]
  cases chooseName p.linsIndex p.lins.length "c" n with
  | error e => rfl
  | ok nm =>
    cases Sense.convert s with
    | error e => rfl
    | ok s =>
      simp only [QP.numVars, QP.opposite]
      cases LinExpr.ofInput p.varsIndex p.vars.length l <;> rfl

theorem quadraticConstraint_opposite (p : QP) (l : LinInput) (q : QuadInput) (s : SenseInput) (r : ℚ)
    (n : Option String) :
    p.opposite.quadraticConstraint l q s r n = Res.opposite (p.quadraticConstraint l q s r n) := by
  unfold QP.quadraticConstraint
  simp only [show p.opposite.quadsIndex = p.quadsIndex from rfl, show p.opposite.quads = p.quads from rfl,
    show p.opposite.varsIndex = p.varsIndex from rfl, show p.opposite.numVars = p.numVars from rfl]
  cases chooseName p.quadsIndex p.quads.length "q" n with
  | error e => rfl
  | ok nm =>
    cases Sense.convert s with
    | error e => rfl
    | ok s =>
      simp only [QP.numVars, QP.opposite]
      cases LinExpr.ofInput p.varsIndex p.vars.length l with
      | error e => rfl
      | ok l => cases QuadExpr.ofInput p.varsIndex p.vars.length q <;> rfl

theorem calcLinBounds_opposite (src : QP) (d : Dict String) (acc : ℚ × ℚ) :
    calcLinBounds src.opposite d acc = calcLinBounds src d acc := by
  induction d generalizing acc with
  | nil => rfl
  | cons p d ih =>
    obtain ⟨s, v⟩ := p
    simp only [calcLinBounds, show src.opposite.getVariable (.name s) = src.getVariable (.name s) from rfl]
    cases src.getVariable (.name s) with
    | error e => rfl
    | ok x => exact ih _

theorem slackVar_opposite (dst : QP) (t : VarType) (n : String) (s : Sense) (r lb ub : ℚ) :
    slackVar dst.opposite t n s r lb ub = (slackVar dst t n s r lb ub).map fun a => (a.1, a.2.opposite) := by
  unfold slackVar
  cases s with
  | eq => rfl
  | le =>
    simp only
    split
    · rw [addVariable_opposite]
      generalize dst.addVariable 0 (r - lb) t (some n) = a
      obtain ⟨a, p'⟩ := a
      cases a <;> rfl
    · rfl
  | ge =>
    simp only
    split
    · rw [addVariable_opposite]
      generalize dst.addVariable 0 (ub - r) t (some n) = a
      obtain ⟨a, p'⟩ := a
      cases a <;> rfl
    · rfl

theorem intSlackLin_opposite (src dst : QP) (lin : Dict String) (s : Sense) (r : ℚ) (n : String) :
    intSlackLin src.opposite dst.opposite lin s r n = (intSlackLin src dst lin s r n).map QP.opposite := by
  unfold intSlackLin
  split
  · rfl
  · rw [calcLinBounds_opposite]
    cases calcLinBounds src lin (0, 0) with
    | error e => rfl
    | ok b =>
      simp only
      rw [slackVar_opposite]
      cases slackVar dst .integer (n ++ delim ++ "int_slack") s (roundRhs s r) b.1 b.2 with
      | error e => rfl
      | ok a =>
        simp only [Except.map]
        rw [linearConstraint_opposite]
        generalize a.2.linearConstraint (linNames (withSlack lin a.1)) (.str "==") (roundRhs s r) (some n) = c
        obtain ⟨c, p'⟩ := c
        cases c <;> rfl

theorem i2eLinOne_opposite (src dst : QP) (k : LinCst) :
    i2eLinOne .integer src.opposite dst.opposite k = (i2eLinOne .integer src dst k).map QP.opposite := by
  unfold i2eLinOne
  simp only [show src.opposite.vars = src.vars from rfl]
  split
  · rw [linearConstraint_opposite]
    generalize dst.linearConstraint (linNames (k.linear.toDictNames src.vars)) (.sense k.sense) k.rhs (some k.name) = c
    obtain ⟨c, p'⟩ := c
    cases c <;> rfl
  · exact intSlackLin_opposite _ _ _ _ _ _

theorem i2eLins_opposite (src : QP) (ks : List LinCst) (dst : QP) :
    i2eLins .integer src.opposite ks dst.opposite = (i2eLins .integer src ks dst).map QP.opposite := by
  induction ks generalizing dst with
  | nil => rfl
  | cons k ks ih =>
    simp only [i2eLins]
    rw [i2eLinOne_opposite]
    cases i2eLinOne .integer src dst k with
    | error e => rfl
    | ok d => exact ih d

theorem calcQuadBounds_opposite (src : QP) (lin : Dict String) (quad : Dict (String × String)) :
    calcQuadBounds src.opposite lin quad = calcQuadBounds src lin quad := by
  unfold calcQuadBounds
  rw [calcLinBounds_opposite]
  cases calcLinBounds src lin (0, 0) with
  | error e => rfl
  | ok acc =>
    simp only
    induction quad generalizing acc with
    | nil => rfl
    | cons p d ih =>
      obtain ⟨⟨si, sj⟩, v⟩ := p
      simp only [calcQuadBoundsLoop,
        show ∀ s, src.opposite.getVariable (.name s) = src.getVariable (.name s) from fun _ => rfl]
      cases src.getVariable (.name si) with
      | error e => rfl
      | ok x =>
        cases src.getVariable (.name sj) with
        | error e => rfl
        | ok y => exact ih _

theorem intSlackQuad_opposite (src dst : QP) (lin : Dict String) (quad : Dict (String × String)) (s : Sense) (r : ℚ)
    (n : String) :
    intSlackQuad src.opposite dst.opposite lin quad s r n = (intSlackQuad src dst lin quad s r n).map QP.opposite := by
  unfold intSlackQuad
  split
  · rfl
  · rw [calcQuadBounds_opposite]
    cases calcQuadBounds src lin quad with
    | error e => rfl
    | ok b =>
      simp only
      rw [slackVar_opposite]
      cases slackVar dst .integer (n ++ delim ++ "int_slack") s (roundRhs s r) b.1 b.2 with
      | error e => rfl
      | ok a =>
        simp only [Except.map]
        rw [quadraticConstraint_opposite]
        generalize a.2.quadraticConstraint _ _ _ _ _ = c
        obtain ⟨c, p'⟩ := c
        cases c <;> rfl

theorem i2eQuadOne_opposite (src dst : QP) (k : QuadCst) :
    i2eQuadOne .integer src.opposite dst.opposite k = (i2eQuadOne .integer src dst k).map QP.opposite := by
  unfold i2eQuadOne
  simp only [show src.opposite.vars = src.vars from rfl]
  split
  · rw [quadraticConstraint_opposite]
    generalize dst.quadraticConstraint _ _ _ _ _ = c
    obtain ⟨c, p'⟩ := c
    cases c <;> rfl
  · exact intSlackQuad_opposite _ _ _ _ _ _ _

theorem i2eQuads_opposite (src : QP) (ks : List QuadCst) (dst : QP) :
    i2eQuads .integer src.opposite ks dst.opposite = (i2eQuads .integer src ks dst).map QP.opposite := by
  induction ks generalizing dst with
  | nil => rfl
  | cons k ks ih =>
    simp only [i2eQuads]
    rw [i2eQuadOne_opposite]
    cases i2eQuadOne .integer src dst k with
    | error e => rfl
    | ok d => exact ih d

theorem linNames_negD (d : Dict String) : linNames (negD d) = (linNames d).neg := by
  simp [linNames, LinInput.neg, negD, Function.comp_def]

theorem quadNames_negD (d : Dict (String × String)) : quadNames (negD d) = (quadNames d).neg := by
  simp [quadNames, QuadInput.neg, negD, Function.comp_def]

theorem linIdx_negD (d : Dict Nat) : linIdx (negD d) = (linIdx d).neg := by
  simp [linIdx, LinInput.neg, negD, Function.comp_def]

theorem quadIdx_negD (d : Dict (Nat × Nat)) : quadIdx (negD d) = (quadIdx d).neg := by
  simp [quadIdx, QuadInput.neg, negD, Function.comp_def]

theorem linToDictNames_negD (n : Nat) (d : Dict Nat) (vars : List Variable) :
    LinExpr.toDictNames ⟨n, negD d⟩ vars = negD (LinExpr.toDictNames ⟨n, d⟩ vars) := by
  simp [LinExpr.toDictNames, negD, Function.comp_def]

theorem quadToDictNames_negD (n : Nat) (d : Dict (Nat × Nat)) (vars : List Variable) :
    QuadExpr.toDictNames ⟨n, negD d⟩ vars = negD (QuadExpr.toDictNames ⟨n, d⟩ vars) := by
  simp [QuadExpr.toDictNames, negD, Function.comp_def]

theorem objective_opposite (p : QP) : p.opposite.objective =
    ⟨-p.objective.constant, ⟨p.objective.linear.n, negD p.objective.linear.coeffs⟩,
      ⟨p.objective.quadratic.n, negD p.objective.quadratic.coeffs⟩, p.objective.sense.flip⟩ := rfl

/-- `minimize` and `maximize` overwrite the objective, so its earlier value does not matter. -/
theorem setObjective_neg (p : QP) (s : ObjSense) (c : ℚ) (l : LinInput) (q : QuadInput) :
    p.setObjective s.flip (-c) l.neg q.neg =
      match p.setObjective s c l q with
      | (.error e, _) => (.error e, p)
      | (.ok u, d) => (.ok u, d.opposite) := by
  unfold QP.setObjective
  rw [linExpr_neg, quadExpr_neg]
  cases LinExpr.ofInput p.varsIndex p.numVars l with
  | error e => rfl
  | ok l => cases QuadExpr.ofInput p.varsIndex p.numVars q <;> rfl

theorem ineqToEq_opposite (src : QP) :
    src.opposite.ineqToEq .integer = (src.ineqToEq .integer).map QP.opposite := by
  unfold QP.ineqToEq
  simp only [show src.opposite.vars = src.vars from rfl, show src.opposite.name = src.name from rfl,
    show src.opposite.lins = src.lins from rfl, show src.opposite.quads = src.quads from rfl]
  cases copyAllVars src.vars (QP.empty src.name) with
  | error e => rfl
  | ok dst =>
    simp only [objective_opposite, linToDictNames_negD, quadToDictNames_negD, linNames_negD, quadNames_negD]
    rw [setObjective_neg]
    generalize dst.setObjective _ _ _ _ = a
    obtain ⟨a, p'⟩ := a
    cases a with
    | error e => rfl
    | ok u =>
      simp only
      rw [i2eLins_opposite]
      cases i2eLins .integer src src.lins p' with
      | error e => rfl
      | ok d => exact i2eQuads_opposite src src.quads d

theorem foldl_set_neg {κ α : Type} [DecidableEq κ] (l : List α) (k : α → κ) (f g : α → ℚ) (h : ∀ a ∈ l, g a = -f a)
    (d : Dict κ) : l.foldl (fun d a => Assoc.set d (k a) (g a)) (negD d) =
      negD (l.foldl (fun d a => Assoc.set d (k a) (f a)) d) := by
  induction l generalizing d with
  | nil => rfl
  | cons a l ih =>
    simp only [List.foldl_cons]
    rw [h a List.mem_cons_self, set_negD]
    exact ih (fun b hb => h b (List.mem_cons_of_mem _ hb)) _

theorem foldl_add_neg {κ α : Type} [DecidableEq κ] (l : List α) (k : α → κ) (f g : α → ℚ) (h : ∀ a ∈ l, g a = -f a)
    (d : Dict κ) : l.foldl (fun d a => Dict.add d (k a) (g a)) (negD d) =
      negD (l.foldl (fun d a => Dict.add d (k a) (f a)) d) := by
  induction l generalizing d with
  | nil => rfl
  | cons a l ih =>
    simp only [List.foldl_cons]
    rw [h a List.mem_cons_self, add_negD]
    exact ih (fun b hb => h b (List.mem_cons_of_mem _ hb)) _

theorem i2bLin_opposite (src : QP) (conv : Conv) (d lin : Dict String) (c : ℚ) :
    i2bLin src.opposite conv (negD d) (negD lin) (-c) =
      (i2bLin src conv d lin c).map fun r => (negD r.1, -r.2) := by
  induction d generalizing lin c with
  | nil => rfl
  | cons p d ih =>
    obtain ⟨s, v⟩ := p
    rw [show negD ((s, v) :: d) = (s, -v) :: negD d from rfl]
    simp only [i2bLin, show src.opposite.getVariable (.name s) = src.getVariable (.name s) from rfl]
    cases src.getVariable (.name s) with
    | error e => rfl
    | ok x =>
      simp only
      cases Assoc.get? conv x.name with
      | none => simp only; rw [set_negD]; exact ih _ _
      | some enc =>
        simp only
        rw [foldl_set_neg enc Prod.fst (fun p => v * p.2) _ (fun _ _ => by ring),
          show -c + -v * x.lb = -(c + v * x.lb) by ring]
        exact ih _ _

theorem i2bLin_src (src : QP) (conv : Conv) (d lin : Dict String) (c : ℚ) :
    i2bLin src.opposite conv d lin c = i2bLin src conv d lin c := by
  induction d generalizing lin c with
  | nil => rfl
  | cons p d ih =>
    obtain ⟨s, v⟩ := p
    simp only [i2bLin, show src.opposite.getVariable (.name s) = src.getVariable (.name s) from rfl]
    cases src.getVariable (.name s) with
    | error e => rfl
    | ok x =>
      simp only
      cases Assoc.get? conv x.name <;> exact ih _ _

theorem foldl_foldl_neg (ex ey : List (String × ℚ)) (v : ℚ) (d : Dict (String × String)) :
    ex.foldl (fun d p => ey.foldl (fun d q => Assoc.set d (p.1, q.1) (-v * p.2 * q.2)) d) (negD d) =
      negD (ex.foldl (fun d p => ey.foldl (fun d q => Assoc.set d (p.1, q.1) (v * p.2 * q.2)) d) d) := by
  induction ex generalizing d with
  | nil => rfl
  | cons p ex ih =>
    simp only [List.foldl_cons]
    rw [foldl_set_neg ey (fun q => (p.1, q.1)) (fun q => v * p.2 * q.2) _ (fun _ _ => by ring)]
    exact ih _

theorem i2bQuad_opposite (src : QP) (conv : Conv) (d quad : Dict (String × String)) (lin : Dict String) (c : ℚ) :
    i2bQuad src.opposite conv (negD d) (negD quad) (negD lin) (-c) =
      (i2bQuad src conv d quad lin c).map fun r => (negD r.1, negD r.2.1, -r.2.2) := by
  induction d generalizing quad lin c with
  | nil => rfl
  | cons p d ih =>
    obtain ⟨⟨si, sj⟩, v⟩ := p
    rw [show negD (((si, sj), v) :: d) = ((si, sj), -v) :: negD d from rfl]
    simp only [i2bQuad, show ∀ s, src.opposite.getVariable (.name s) = src.getVariable (.name s) from fun _ => rfl]
    cases src.getVariable (.name si) with
    | error e => rfl
    | ok x =>
      cases src.getVariable (.name sj) with
      | error e => rfl
      | ok y =>
        simp only
        cases Assoc.get? conv x.name with
        | none =>
          cases Assoc.get? conv y.name with
          | none => simp only; rw [set_negD]; exact ih _ _ _
          | some ey =>
            simp only
            rw [foldl_set_neg ey (fun p => (x.name, p.1)) (fun p => v * p.2) _ (fun _ _ => by ring), neg_mul, add_negD]
            exact ih _ _ _
        | some ex =>
          cases Assoc.get? conv y.name with
          | none =>
            simp only
            rw [foldl_set_neg ex (fun p => (p.1, y.name)) (fun p => v * p.2) _ (fun _ _ => by ring), neg_mul, add_negD]
            exact ih _ _ _
          | some ey =>
            simp only
            rw [foldl_foldl_neg, foldl_add_neg ex Prod.fst (fun _ => v * y.lb) _ (fun _ _ => by ring),
              foldl_add_neg ey Prod.fst (fun _ => v * x.lb) _ (fun _ _ => by ring),
              show -c + -v * x.lb * y.lb = -(c + v * x.lb * y.lb) by ring]
            exact ih _ _ _

theorem i2bObjective_opposite (src : QP) (conv : Conv) (dst : QP) :
    i2bObjective src.opposite conv dst = (i2bObjective src conv dst).map QP.opposite := by
  unfold i2bObjective
  simp only [show src.opposite.vars = src.vars from rfl,
    objective_opposite,
    linToDictNames_negD, quadToDictNames_negD]
  have h1 := i2bLin_opposite src conv (src.objective.linear.toDictNames src.vars) [] 0
  have h2 := i2bQuad_opposite src conv (src.objective.quadratic.toDictNames src.vars) [] [] 0
  rw [neg_zero] at h1 h2
  rw [show i2bLin src.opposite conv _ [] 0 = _ from h1]
  cases i2bLin src conv (src.objective.linear.toDictNames src.vars) [] 0 with
  | error e => rfl
  | ok r =>
    simp only [Except.map]
    rw [show i2bQuad src.opposite conv _ [] [] 0 = _ from h2]
    cases i2bQuad src conv (src.objective.quadratic.toDictNames src.vars) [] [] 0 with
    | error e => rfl
    | ok t =>
      simp only [Except.map]
      rw [dokPlus_negD, linNames_negD, quadNames_negD,
        show -src.objective.constant + -r.2 + -t.2.2 = -(src.objective.constant + r.2 + t.2.2) by ring, setObjective_neg]
      generalize dst.setObjective _ _ _ _ = a
      obtain ⟨a, p'⟩ := a
      cases a <;> rfl

theorem i2bLins_opposite (src : QP) (conv : Conv) (ks : List LinCst) (dst : QP) :
    i2bLins src.opposite conv ks dst.opposite = (i2bLins src conv ks dst).map QP.opposite := by
  induction ks generalizing dst with
  | nil => rfl
  | cons k ks ih =>
    simp only [i2bLins, show src.opposite.vars = src.vars from rfl]
    rw [i2bLin_src]
    cases i2bLin src conv (k.linear.toDictNames src.vars) [] 0 with
    | error e => rfl
    | ok r =>
      simp only
      rw [linearConstraint_opposite]
      generalize dst.linearConstraint _ _ _ _ = a
      obtain ⟨a, p'⟩ := a
      cases a with
      | error e => rfl
      | ok _ => exact ih p'

theorem i2bQuad_src (src : QP) (conv : Conv) (d quad : Dict (String × String)) (lin : Dict String) (c : ℚ) :
    i2bQuad src.opposite conv d quad lin c = i2bQuad src conv d quad lin c := by
  induction d generalizing quad lin c with
  | nil => rfl
  | cons p d ih =>
    obtain ⟨⟨si, sj⟩, v⟩ := p
    simp only [i2bQuad, show ∀ s, src.opposite.getVariable (.name s) = src.getVariable (.name s) from fun _ => rfl]
    cases src.getVariable (.name si) with
    | error e => rfl
    | ok x =>
      cases src.getVariable (.name sj) with
      | error e => rfl
      | ok y =>
        simp only
        cases Assoc.get? conv x.name <;> cases Assoc.get? conv y.name <;> exact ih _ _ _

theorem i2bQuads_opposite (src : QP) (conv : Conv) (ks : List QuadCst) (dst : QP) :
    i2bQuads src.opposite conv ks dst.opposite = (i2bQuads src conv ks dst).map QP.opposite := by
  induction ks generalizing dst with
  | nil => rfl
  | cons k ks ih =>
    simp only [i2bQuads, show src.opposite.vars = src.vars from rfl]
    rw [i2bLin_src, i2bQuad_src]
    cases i2bLin src conv (k.linear.toDictNames src.vars) [] 0 with
    | error e => rfl
    | ok r =>
      simp only
      cases i2bQuad src conv (k.quadratic.toDictNames src.vars) [] [] 0 with
      | error e => rfl
      | ok t =>
        simp only
        rw [quadraticConstraint_opposite]
        generalize dst.quadraticConstraint _ _ _ _ _ = a
        obtain ⟨a, p'⟩ := a
        cases a with
        | error e => rfl
        | ok _ => exact ih p'

theorem intToBin_opposite (src : QP) :
    src.opposite.intToBin = src.intToBin.map fun c => ⟨c.src.opposite, c.dst.opposite, c.conv⟩ := by
  unfold QP.intToBin
  simp only [show src.opposite.numIntegerVars = src.numIntegerVars from rfl,
    show src.opposite.vars = src.vars from rfl, show src.opposite.name = src.name from rfl,
    show src.opposite.lins = src.lins from rfl, show src.opposite.quads = src.quads from rfl]
  split
  · cases i2bVars src.vars [] (QP.empty src.name) with
    | error e => rfl
    | ok r =>
      simp only
      rw [i2bObjective_opposite]
      cases i2bObjective src r.1 r.2 with
      | error e => rfl
      | ok d =>
        simp only [Except.map]
        rw [i2bLins_opposite]
        cases i2bLins src r.1 src.lins d with
        | error e => rfl
        | ok d =>
          simp only [Except.map]
          rw [i2bQuads_opposite]
          cases i2bQuads src r.1 src.quads d <;> rfl
  · rfl

theorem penLinear_negD (f r : ℚ) (row lin : Dict Nat) :
    penLinear (-f) r row (negD lin) = negD (penLinear f r row lin) := by
  induction row generalizing lin with
  | nil => rfl
  | cons p row ih =>
    obtain ⟨j, c⟩ := p
    simp only [penLinear]
    rw [show -f * -2 * c * r = -(f * -2 * c * r) by ring, add_negD]
    exact ih _

theorem penQuadRow_negD (f : ℚ) (j : Nat) (c : ℚ) (row : Dict Nat) (quad : Dict (Nat × Nat)) :
    penQuadRow (-f) j c row (negD quad) = negD (penQuadRow f j c row quad) := by
  induction row generalizing quad with
  | nil => rfl
  | cons p row ih =>
    obtain ⟨k, c2⟩ := p
    simp only [penQuadRow]
    rw [show -f * c * c2 = -(f * c * c2) by ring, add_negD]
    exact ih _

theorem penQuad_negD (f : ℚ) (all row : Dict Nat) (quad : Dict (Nat × Nat)) :
    penQuad (-f) all row (negD quad) = negD (penQuad f all row quad) := by
  induction row generalizing quad with
  | nil => rfl
  | cons p row ih =>
    obtain ⟨j, c⟩ := p
    simp only [penQuad]
    rw [penQuadRow_negD]
    exact ih _

theorem penLoop_negD (f : ℚ) (cs : List LinCst) (t : PenTerms) :
    penLoop (-f) cs ⟨-t.offset, negD t.linear, negD t.quadratic⟩ =
      (penLoop f cs t).map fun t => ⟨-t.offset, negD t.linear, negD t.quadratic⟩ := by
  induction cs generalizing t with
  | nil => rfl
  | cons c cs ih =>
    simp only [penLoop]
    split
    · rfl
    · rw [penLinear_negD, penQuad_negD, show -t.offset + -f * c.rhs ^ 2 = -(t.offset + f * c.rhs ^ 2) by ring]
      exact ih ⟨_, _, _⟩

theorem autoPenalty_opposite (src : QP) : autoPenalty src.opposite = autoPenalty src := by
  unfold autoPenalty
  simp only [show src.opposite.lins = src.lins from rfl,
    objective_opposite,
    QuadExpr.toDict, Bool.false_eq_true, if_false, values_abs_negD]

theorem toPenalty_opposite (penalty : Option ℚ) (src : QP) :
    src.opposite.toPenalty penalty = (src.toPenalty penalty).map fun r => (r.1.opposite, r.2) := by
  unfold QP.toPenalty
  simp only [autoPenalty_opposite]
  simp only [show src.opposite.vars = src.vars from rfl, show src.opposite.name = src.name from rfl,
    show src.opposite.lins = src.lins from rfl,
    objective_opposite,
    QuadExpr.toDict, Bool.false_eq_true, if_false, flip_value]
  cases copyAllVars src.vars (QP.empty src.name) with
  | error e => rfl
  | ok dst =>
    simp only
    have h := penLoop_negD (src.objective.sense.value * penalty.getD (autoPenalty src)) src.lins
      ⟨src.objective.constant, src.objective.linear.coeffs, src.objective.quadratic.coeffs⟩
    rw [neg_mul, h]
    cases penLoop (src.objective.sense.value * penalty.getD (autoPenalty src)) src.lins
      ⟨src.objective.constant, src.objective.linear.coeffs, src.objective.quadratic.coeffs⟩ with
    | error e => rfl
    | ok t =>
      simp only [Except.map]
      rw [linIdx_negD, quadIdx_negD, setObjective_neg]
      generalize dst.setObjective _ _ _ _ = a
      obtain ⟨a, p'⟩ := a
      cases a <;> rfl

/-- The converter after converting the opposite program. -/
def QuboState.opposite (st : QuboState) : QuboState :=
  ⟨st.src.opposite, st.eqs.opposite, ⟨st.i2b.src.opposite, st.i2b.dst.opposite, st.i2b.conv⟩, st.dst.opposite,
    st.pen⟩

theorem toQubo_opposite (penalty : Option ℚ) (src : QP) :
    src.opposite.toQubo penalty = (src.toQubo penalty).map QuboState.opposite := by
  unfold QP.toQubo
  rw [show quboMsg src.opposite = quboMsg src from rfl]
  by_cases hm : (quboMsg src).length > 0
  · rw [if_pos hm, if_pos hm]
    rfl
  · rw [if_neg hm, if_neg hm]
    rw [ineqToEq_opposite]
    cases src.ineqToEq .integer with
    | error e => rfl
    | ok eqs =>
      simp only [Except.map]
      rw [intToBin_opposite]
      cases eqs.intToBin with
      | error e => rfl
      | ok i2b =>
        simp only [Except.map]
        rw [toPenalty_opposite]
        cases i2b.dst.toPenalty penalty <;> rfl

theorem interpret_opposite (st : QuboState) : st.opposite.interpret = st.interpret := rfl

theorem isingLinear_negD (n : Nat) (s : ℚ) (d : Dict Nat) (st : IsingState) :
    isingLinear n (-s) (negD d) st = isingLinear n s d st := by
  induction d generalizing st with
  | nil => rfl
  | cons p d ih =>
    obtain ⟨i, c⟩ := p
    obtain ⟨t, o⟩ := st
    rw [show negD ((i, c) :: d) = (i, -c) :: negD d from rfl]
    simp only [isingLinear, neg_mul_neg]
    split
    · exact ih _
    · rfl

theorem isingQuadratic_negD (n : Nat) (s : ℚ) (d : Dict (Nat × Nat)) (st : IsingState) :
    isingQuadratic n (-s) (negD d) st = isingQuadratic n s d st := by
  induction d generalizing st with
  | nil => rfl
  | cons p d ih =>
    obtain ⟨⟨i, j⟩, c⟩ := p
    obtain ⟨t, o⟩ := st
    rw [show negD (((i, j), c) :: d) = ((i, j), -c) :: negD d from rfl]
    simp only [isingQuadratic, neg_mul_neg]
    split
    · exact ih _
    · rfl

theorem mergeCoeffs_negD (d : Dict (Nat × Nat)) : mergeCoeffs (negD d) = negD (mergeCoeffs d) := by
  unfold mergeCoeffs
  suffices h : ∀ acc : Dict (Nat × Nat), (negD d).foldl (fun acc p =>
      if p.1.2 < p.1.1 then Dict.add acc (p.1.2, p.1.1) p.2 else Dict.add acc p.1 p.2) (negD acc) =
      negD (d.foldl (fun acc p =>
        if p.1.2 < p.1.1 then Dict.add acc (p.1.2, p.1.1) p.2 else Dict.add acc p.1 p.2) acc) from h []
  induction d with
  | nil => intro acc; rfl
  | cons p d ih =>
    intro acc
    rw [show negD (p :: d) = (p.1, -p.2) :: negD d from rfl]
    simp only [List.foldl_cons]
    split
    · rw [add_negD]; exact ih _
    · rw [add_negD]; exact ih _

theorem toIsing_opposite (p : QP) : p.opposite.toIsing = p.toIsing := by
  unfold QP.toIsing
  simp only [objective_opposite, flip_value, neg_mul_neg, mergeCoeffs_negD, isingLinear_negD, isingQuadratic_negD]
  rfl

theorem evaluate_opposite (o : Objective) (x : List ℚ) : o.opposite.evaluate x = (o.evaluate x).map (-·) := by
  unfold Objective.evaluate LinExpr.evaluate QuadExpr.evaluate LinExpr.val QuadExpr.val Objective.opposite
  simp only [sum_negD]
  by_cases h1 : x.length ≠ o.linear.n
  · simp only [if_pos h1]; rfl
  · by_cases h2 : x.length ≠ o.quadratic.n
    · simp only [if_neg h1, if_pos h2]; rfl
    · simp only [if_neg h1, if_neg h2, Except.map]
      congr 1
      ring

theorem feasibilityStatus_opposite (p : QP) (x : List ℚ) : feasibilityStatus p.opposite x = feasibilityStatus p x := rfl

theorem generateSolution_opposite (b : List Char) (p : QP) (pr : ℚ) :
    generateSolution b p.opposite pr = (generateSolution b p pr).map Sample.opposite := by
  unfold generateSolution
  cases digitsOf b with
  | error e => rfl
  | ok x =>
    simp only
    rw [show p.opposite.objective = p.objective.opposite from rfl, evaluate_opposite]
    cases p.objective.evaluate x <;> rfl

theorem decodeCounts_opposite (p : QP) (m a : ℚ) (l : List (String × ℚ)) :
    decodeCounts p.opposite m a l = (decodeCounts p m a l).map (List.map Sample.opposite) := by
  induction l with
  | nil => rfl
  | cons q l ih =>
    obtain ⟨b, c⟩ := q
    simp only [decodeCounts]
    split
    · rfl
    · split
      · rw [generateSolution_opposite, ih]
        cases generateSolution b.toList p (c / a) with
        | error e => rfl
        | ok s => cases decodeCounts p m a l <;> rfl
      · exact ih

theorem decodeVector_opposite (p : QP) (m : ℚ) (n : Nat) (l : List (ℚ × ℚ)) (i : Nat) :
    decodeVector p.opposite m n l i = (decodeVector p m n l i).map (List.map Sample.opposite) := by
  induction l generalizing i with
  | nil => rfl
  | cons a l ih =>
    simp only [decodeVector]
    split
    · rw [generateSolution_opposite, ih]
      cases generateSolution (vectorKey n i) p (ampProb a) with
      | error e => rfl
      | ok s => cases decodeVector p m n l (i + 1) <;> rfl
    · exact ih _

theorem eigenToSolutions_opposite (e : Eigenstate) (p : QP) (m : ℚ) :
    eigenToSolutions e p.opposite m = (eigenToSolutions e p m).map (List.map Sample.opposite) := by
  cases e with
  | counts d => exact decodeCounts_opposite _ _ _ _
  | dictFn d =>
    simp only [eigenToSolutions]
    cases squareAmps d with
    | error e => rfl
    | ok d => exact decodeCounts_opposite _ _ _ _
  | vector v =>
    simp only [eigenToSolutions]
    split
    · rfl
    · exact decodeVector_opposite _ _ _ _ _
  | other => rfl

theorem sortedBy_map {α β : Type} (f : α → β) (le : α → α → Bool) (le' : β → β → Bool)
    (h : ∀ a b, le' (f a) (f b) = le a b) (l : List α) : sortedBy le' (l.map f) = (sortedBy le l).map f := by
  unfold sortedBy
  rw [List.map_insertionSort (r := fun a b => le a b = true) (s := fun a b => le' a b = true)]
  intro a _ b _
  rw [h]

theorem mergeSamples_opposite (fs : List Interp) (l : List Sample) (prob : Assoc (List ℚ) ℚ) :
    mergeSamples fs (l.map Sample.opposite) prob = mergeSamples fs l prob := by
  induction l generalizing prob with
  | nil => rfl
  | cons s l ih =>
    simp only [List.map_cons, mergeSamples, show s.opposite.x = s.x from rfl,
      show s.opposite.probability = s.probability from rfl]
    cases interpretAll fs s.x with
    | error e => rfl
    | ok x => exact ih _

theorem evalSamples_opposite (p : QP) (l : Assoc (List ℚ) ℚ) :
    evalSamples p.opposite l = (evalSamples p l).map (List.map Sample.opposite) := by
  induction l with
  | nil => rfl
  | cons q l ih =>
    obtain ⟨x, pr⟩ := q
    simp only [evalSamples]
    rw [show p.opposite.objective = p.objective.opposite from rfl, evaluate_opposite, feasibilityStatus_opposite, ih]
    cases p.objective.evaluate x with
    | error e => rfl
    | ok v =>
      simp only [Except.map]
      cases feasibilityStatus p x with
      | error e => rfl
      | ok st => cases evalSamples p l <;> rfl

theorem interpretSamples_opposite (p : QP) (raw : List Sample) (fs : List Interp) :
    interpretSamples p.opposite (raw.map Sample.opposite) fs =
      (interpretSamples p raw fs).map (List.map Sample.opposite) := by
  unfold interpretSamples
  rw [mergeSamples_opposite]
  cases mergeSamples fs raw [] with
  | error e => rfl
  | ok prob =>
    simp only
    rw [evalSamples_opposite]
    cases evalSamples p prob with
    | error e => rfl
    | ok l =>
      simp only [Except.map]
      congr 1
      apply sortedBy_map
      intro a b
      simp only [sampleLE, objective_opposite, flip_value, Sample.opposite, neg_mul_neg]

theorem interpretResult_opposite (p : QP) (fs : List Interp) (samples raw : List Sample) (x : List ℚ) :
    interpretResult p.opposite fs (samples.map Sample.opposite) (raw.map Sample.opposite) x =
      (interpretResult p fs samples raw x).map Result.opposite := by
  unfold interpretResult
  cases interpretAll fs x with
  | error e => rfl
  | ok x =>
    simp only
    rw [show p.opposite.objective = p.objective.opposite from rfl, evaluate_opposite, feasibilityStatus_opposite]
    cases p.objective.evaluate x with
    | error e => rfl
    | ok v =>
      simp only [Except.map]
      cases feasibilityStatus p x with
      | error e => rfl
      | ok st =>
        simp only [Result.mk?]
        rw [show p.opposite.vars = p.vars from rfl]
        split <;> rfl

theorem solveInternal_opposite (solver : QubitOp → Option Eigenstate) (op : QubitOp) (q p : QP) (fs : List Interp) :
    solveInternal solver op q.opposite p.opposite fs = (solveInternal solver op q p fs).map Result.opposite := by
  unfold solveInternal
  split
  · rfl
  · cases solver op with
    | none => rfl
    | some e =>
      simp only
      rw [eigenToSolutions_opposite]
      cases eigenToSolutions e q (1 / 10 ^ 6) with
      | error e => rfl
      | ok raw =>
        simp only [Except.map, objective_opposite, flip_value]
        rw [sortedBy_map Sample.opposite (fun a b =>
          decide (q.objective.sense.value * a.fval ≤ q.objective.sense.value * b.fval)) _
          (fun a b => by simp only [Sample.opposite, neg_mul_neg])]
        generalize sortedBy _ raw = raw'
        cases raw' with
        | nil => rfl
        | cons s l =>
          simp only [List.map_cons]
          have h1 := interpretSamples_opposite p (s :: l) fs
          have h2 := fun samples => interpretResult_opposite p fs samples (s :: l) s.x
          simp only [List.map_cons] at h1 h2
          rw [h1]
          cases interpretSamples p (s :: l) fs with
          | error e => rfl
          | ok samples => exact h2 samples

end Verif
