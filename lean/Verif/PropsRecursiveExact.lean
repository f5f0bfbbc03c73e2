import Verif.RecursiveExact

/-!
# C80: the recursive optimizer with exact inner optimizers
-/

namespace Verif

/-- `RecursiveMinimumEigenOptimizer` with two `MinimumEigenOptimizer`s: `solver t` is the eigensolver in iteration `t`,
`last` the one for the reduced program; both optimizers and the recursive one have the default converter, the inner
ones with the given penalties. -/
def recursiveWith (solver : Nat → QubitOp → Option Eigenstate) (last : QubitOp → Option Eigenstate) (pen pen' : Option ℚ)
    (m : Nat) (p : QP) (fuel : Nat) : Option (Except Err RecResult) :=
  recursiveSolve (fun t => minEigenSolve (solver t) [quboConverter pen]) (minEigenSolve last [quboConverter pen']) m
    [quboConverter none] p fuel

theorem qubo_free {p : QP} (hp : p.WF) {st : QuboState} (h : p.toQubo none = .ok st)
    (hc : "__CONSTANT__" ∉ st.dst.vars.map Variable.name) : st.dst.Free := by
  obtain ⟨hbin, hcs, _⟩ := (C23_qubo none p hp).1 st h
  obtain ⟨_, _, h1, h2, h3⟩ := toQubo_stages h
  have f1 := ineqToEq_facts hp h1
  have f2 := intToBin_facts f1.starts.wf h2
  have f3 := toPenalty_facts f2.wf h3
  have hcs' := hcs
  simp only [QP.allCsts, List.append_eq_nil_iff, List.map_eq_nil_iff] at hcs'
  exact ⟨f3.wf, hc, fun v hv => (hbin v hv).1, fun v hv => by
    obtain ⟨_, l, u⟩ := hbin v hv
    rw [l, u]; norm_num, hcs'.1, hcs'.2, f3.shape.2.1, f3.shape.2.2⟩

theorem interpret_total {p : QP} (hp : p.WF) {st : QuboState} (h : p.toQubo none = .ok st) {z : List ℚ}
    (hz : z.length = st.dst.numVars) : ∃ x, st.interpret z = .ok x ∧ x.length = p.numVars := by
  obtain ⟨_, hsrc, h1, h2, h3⟩ := toQubo_stages h
  have f1 := ineqToEq_facts hp h1
  have f2 := intToBin_facts f1.starts.wf h2
  have f3 := toPenalty_facts f2.wf h3
  have hnum : st.dst.numVars = st.i2b.dst.numVars := by simp [QP.numVars, f3.vars]
  obtain ⟨y, hy⟩ : ∃ y, st.i2b.interpret z = .ok y :=
    ⟨_, (interpret_iff f1.starts.wf f2 z _).mpr ⟨by rw [hz, hnum], rfl⟩⟩
  obtain ⟨hyl, _⟩ := interpret_decodes f1.starts.wf f2 hy
  have h4 := (ineqInterpret_iff hp.cons f1.starts y _).mpr ⟨hyl.ge, rfl⟩
  refine ⟨y.take p.numVars, ?_, ?_⟩
  · have hlen : ¬ z.length ≠ st.i2b.dst.numVars := by rw [hz, hnum]; simp
    simp only [QuboState.interpret, penInterpret, hlen, if_false, hy, hsrc, h4]
  · rw [List.length_take, hyl]
    exact min_eq_left f1.starts.le

/-- What both theorems below say, for a given accuracy. -/
theorem recursive_ground {p : QP} (hp : p.WF) (hsh : p.ShapeOK) {st : QuboState} (h : p.toQubo none = .ok st)
    (hn : 0 < st.dst.numVars) (hc : "__CONSTANT__" ∉ st.dst.vars.map Variable.name)
    {solver : Nat → QubitOp → Option Eigenstate} {last : QubitOp → Option Eigenstate}
    (hsol : ∀ t, ExactSolver (solver t)) (hlast : ExactSolver last) {pen pen' : Option ℚ} {m fuel : Nat} (hm : 1 ≤ m)
    (hf : st.dst.numVars < fuel) {ε : ℚ} (ha : Accuracy ε st.dst) :
    ∃ r x, recursiveWith solver last pen pen' m p fuel = some (.ok r) ∧ r.result.x = some x ∧ x.length = p.numVars ∧
      r.point.length = st.dst.numVars ∧ st.interpret r.point = .ok x ∧ IsBits st.dst.numVars (pt r.point) ∧
      (∀ z, IsBits st.dst.numVars z → st.dst.objective.sense.value * st.dst.objective.val (pt r.point) ≤
        st.dst.objective.sense.value * st.dst.objective.val z + 2 * st.dst.numVars * ε) ∧
      r.result.fval = some (p.objective.val (pt x)) ∧ (r.result.status = .success ↔ p.FeasTol (pt x)) := by
  have hfree := qubo_free hp h hc
  obtain ⟨q, reps, h1, hq, hpos, hun⟩ := unroll_ground
    (solver := fun t => minEigenSolve (solver t) [quboConverter pen]) (m := m) hm (by
      intro t q hq hqn
      obtain ⟨r, _, a, b, _⟩ := minEigen_free hq (by omega) pen (hsol t)
      exact ⟨r, a, b⟩) hfree ha hf
  obtain ⟨res, y, r1, _, r3, r4, r5⟩ := minEigen_free hq (hpos hn) pen' hlast
  obtain ⟨z, z1, z2, z3, z4⟩ := hun y r4 r5
  obtain ⟨x, x1, x2⟩ := interpret_total hp h z2
  have hmsg : ¬ (quboMsg p).length > 0 := by
    intro hlen
    simp [QP.toQubo, hlen] at h
  have hall : ∀ x, interpretAll [st.interpret] x = st.interpret x := by
    intro x
    simp only [interpretAll, List.reverse_singleton, interpretRev]
    cases st.interpret x <;> rfl
  have hI : Interprets [st.interpret] z x := by rw [interprets_iff, hall, x1]
  obtain ⟨r, hr⟩ := C29_accepts p hsh [st.interpret] [] [] z x hI x2
  obtain ⟨y', y1, y2, y3, _, y4, _, y5, _⟩ := C29_result p hp.cons.vars.2 _ _ _ _ r hr
  have hy' : y' = x := by
    rw [interprets_iff] at hI y1
    rw [hI] at y1
    cases y1
    rfl
  subst hy'
  refine ⟨⟨r, z, reps, q, res, p⟩, y', ?_, y2, x2, z2, x1, z3, z4, y4, y5⟩
  have hcon : convertAll [quboConverter none] p = .ok (st.dst, [st.interpret]) := by
    simp only [convertAll, quboConverter, h]
  have hcal : callersProgram (fun t => minEigenSolve (solver t) [quboConverter pen]) m [quboConverter none] p = p := by
    unfold callersProgram
    rw [if_neg]
    simp
  unfold recursiveWith recursiveSolve
  rw [if_neg hmsg]
  simp only [hcon, h1, r1, r3, z1, hcal, hr]

/-- **C80, the part that holds exactly.**  If both inner optimizers have exact eigensolvers and all coefficients of the
QUBO are multiples of some `g > 2·10⁻¹⁰` (for instance integers), the recursive optimizer returns a feasible optimal point
of the program with its objective value and status SUCCESS, for any minimal number of variables.
Full statement: the same for all coefficients.  Missing (false): coefficients below the cutoff of the shift
(`C80_violated`; how far the point can then be from the optimum is `C80_near`); programs whose QUBO is not exact (C22) or
has no variables; a variable of the QUBO called `__CONSTANT__` (C59). -/
theorem C80_optimum_partial (p : QP) (hp : p.WF) (hsh : p.ShapeOK) (hb : p.BinBoundsOK)
    (hi : ∀ v ∈ p.vars, v.vartype = .integer → (∃ z : Int, v.lb = z) ∧ ∃ z : Int, v.ub = z)
    (hpr : ProductsOK p p.objective.quadratic) (st : QuboState) (h : p.toQubo none = .ok st)
    (hn : 0 < st.dst.numVars) (hc : "__CONSTANT__" ∉ st.dst.vars.map Variable.name) (hfeas : ∃ x, p.Feas x)
    (g : ℚ) (hg : 2 / 10 ^ 10 < g) (hco : st.dst.objective.MultiplesOf g)
    (solver : Nat → QubitOp → Option Eigenstate) (last : QubitOp → Option Eigenstate)
    (hsol : ∀ t, ExactSolver (solver t)) (hlast : ExactSolver last) (pen pen' : Option ℚ) (m fuel : Nat) (hm : 1 ≤ m)
    (hf : st.dst.numVars < fuel) :
    ∃ r x, recursiveWith solver last pen pen' m p fuel = some (.ok r) ∧ r.result.x = some x ∧ x.length = p.numVars ∧
      OptimalIn p.Feas p.objective (pt x) ∧ r.result.fval = some (p.objective.val (pt x)) ∧
      r.result.status = .success := by
  obtain ⟨r, x, a1, a2, a3, a4, a5, a6, a7, a8, a9⟩ := recursive_ground hp hsh h hn hc hsol hlast (pen := pen)
    (pen' := pen') hm hf (ε := 0) ⟨le_refl _, Or.inl ⟨g, hg, hco.quant⟩⟩
  obtain ⟨hbin, hcs, _⟩ := (C23_qubo none p hp).1 st h
  have hbits : ∀ y, st.dst.Feas y → IsBits st.dst.numVars y := by
    intro y hy k hk
    have hv : st.dst.vars[k]? = some (st.dst.vars[k]'hk) := List.getElem?_eq_getElem hk
    have hA := ((feas_iff_admits _ _).mp hy).1 k _ hv
    obtain ⟨t, l, u⟩ := hbin _ (List.getElem_mem hk)
    exact binary_val (by rw [← l]; exact hA.1.1) (by rw [← u]; exact hA.1.2) (hA.2 (by rw [t]; simp))
  have hz : OptimalIn st.dst.Feas st.dst.objective (pt r.point) := by
    refine ⟨(feas_iff_admits _ _).mpr ⟨?_, by unfold QP.Sat; rw [hcs]; simp⟩, fun y hy => ?_⟩
    · intro k v hv
      have hk := (List.getElem?_eq_some_iff.mp hv).1
      obtain ⟨t, l, u⟩ := hbin v (List.mem_of_getElem? hv)
      refine ⟨?_, fun _ => ?_⟩
      · rw [l, u]; rcases a6 k hk with g | g <;> rw [g] <;> norm_num
      · rcases a6 k hk with g | g
        · exact ⟨0, by rw [g]; simp⟩
        · exact ⟨1, by rw [g]; simp⟩
    · have := a7 y (hbits y hy)
      linarith
  obtain ⟨x', b1, _, b3, _⟩ := C22_exact_partial p st hp hb hi hpr h hfeas r.point a4 hz
  rw [a5] at b1
  cases b1
  exact ⟨r, x, a1, a2, a3, b3, a8, a9.mpr ⟨b3.1.1, fun k hk => rel_imp_relTol (b3.1.2.2 k hk)⟩⟩

/-- **C80, all coefficients**: with exact inner optimizers the point found for the QUBO is at most `2 n² 10⁻¹⁰` from its
optimal value, and the answer is its interpretation. -/
theorem C80_near (p : QP) (hp : p.WF) (hsh : p.ShapeOK) (st : QuboState) (h : p.toQubo none = .ok st)
    (hn : 0 < st.dst.numVars) (hc : "__CONSTANT__" ∉ st.dst.vars.map Variable.name)
    (solver : Nat → QubitOp → Option Eigenstate) (last : QubitOp → Option Eigenstate)
    (hsol : ∀ t, ExactSolver (solver t)) (hlast : ExactSolver last) (pen pen' : Option ℚ) (m fuel : Nat) (hm : 1 ≤ m)
    (hf : st.dst.numVars < fuel) :
    ∃ r x, recursiveWith solver last pen pen' m p fuel = some (.ok r) ∧ r.result.x = some x ∧
      st.interpret r.point = .ok x ∧ IsBits st.dst.numVars (pt r.point) ∧
      ∀ z, IsBits st.dst.numVars z → st.dst.objective.sense.value * st.dst.objective.val (pt r.point) ≤
        st.dst.objective.sense.value * st.dst.objective.val z + 2 * (st.dst.numVars : ℚ) ^ 2 / 10 ^ 10 := by
  obtain ⟨r, x, a1, a2, _, _, a5, a6, a7, _⟩ := recursive_ground hp hsh h hn hc hsol hlast (pen := pen)
    (pen' := pen') hm hf (ε := (st.dst.numVars : ℚ) / 10 ^ 10) ⟨by positivity, Or.inr (le_refl _)⟩
  refine ⟨r, x, a1, a2, a5, a6, fun z hz => ?_⟩
  have := a7 z hz
  have h2 : 2 * (st.dst.numVars : ℚ) * ((st.dst.numVars : ℚ) / 10 ^ 10) = 2 * (st.dst.numVars : ℚ) ^ 2 / 10 ^ 10 := by
    ring
  linarith

/-- `maximize 2 x + 3 b - 4 x b` with integer `x ∈ [0, 2]`, binary `b` and `x + b ≤ 2`. -/
def recTestQP : QP :=
  (runCalls (QP.empty "") [.addVar 0 2 .integer (some "x"), .addVar 0 1 .binary (some "b"),
    .objective .maximize 0 (.dict [(.name "x", 2), (.name "b", 3)]) (.dict [((.name "x", .name "b"), -4)]),
    .linear (.dict [(.name "x", 1), (.name "b", 1)]) (.str "<=") 2 (some "c")]).2

def recTestState : QuboState :=
  match recTestQP.toQubo none with
  | .ok st => st
  | .error _ => ⟨QP.empty "", QP.empty "", ⟨QP.empty "", QP.empty "", []⟩, QP.empty "", 0⟩

theorem multiplesOf_one {o : Objective} (h : o.constant.den = 1 ∧ (∀ q ∈ o.linear.coeffs, q.2.den = 1) ∧
    ∀ q ∈ o.quadratic.coeffs, q.2.den = 1) : o.MultiplesOf 1 := by
  have key : ∀ c : ℚ, c.den = 1 → ∃ z : Int, c = 1 * z := fun c hc => ⟨c.num, by rw [one_mul, Rat.coe_int_num_of_den_eq_one hc]⟩
  exact ⟨key _ h.1, fun q hq => key _ (h.2.1 q hq), fun q hq => key _ (h.2.2 q hq)⟩

/-- All hypotheses of `C80_optimum_partial` hold for the example, with solvers that try all bit strings. -/
example : ∃ r x, recursiveWith (fun _ => exhaustive) exhaustive none none 1 recTestQP 10 = some (.ok r) ∧
    r.result.x = some x ∧ x.length = recTestQP.numVars ∧ OptimalIn recTestQP.Feas recTestQP.objective (pt x) ∧
    r.result.fval = some (recTestQP.objective.val (pt x)) ∧ r.result.status = .success := by
  have hv : recTestQP.vars = [⟨"x", 0, 2, .integer⟩, ⟨"b", 0, 1, .binary⟩] := by decide +kernel
  refine C80_optimum_partial recTestQP (by decide +kernel) (by decide +kernel) (by unfold QP.BinBoundsOK; decide +kernel) ?_ ?_ recTestState
    (by decide +kernel) (by decide +kernel) (by decide +kernel) ⟨pt [2, 0], ?_⟩ 1 (by norm_num)
    (multiplesOf_one (by decide +kernel)) _ _ (fun _ => exhaustive_exact) exhaustive_exact _ _ _ _ (le_refl _)
    (by decide +kernel)
  · rw [hv]
    intro v h _
    simp only [List.mem_cons, List.not_mem_nil, or_false] at h
    rcases h with rfl | rfl
    · exact ⟨⟨0, by norm_num⟩, 2, by norm_num⟩
    · exact ⟨⟨0, by norm_num⟩, 1, by norm_num⟩
  · have ho : Assoc.keys recTestQP.objective.quadratic.coeffs = [(0, 1)] := by decide +kernel
    intro k hk v w h1 h2 _ t2
    rw [ho] at hk
    rw [hv] at h1 h2
    rw [List.mem_singleton.mp hk] at h1 h2
    simp at h1 h2
    rw [← h2] at t2
    simp at t2
  · refine ⟨?_, ?_, ?_⟩
    · have : ∀ i ∈ List.range 2, ∀ v ∈ recTestQP.vars[i]?, v.lb ≤ pt [2, 0] i ∧ pt [2, 0] i ≤ v.ub := by decide +kernel
      intro i v hi
      refine this i (List.mem_range.mpr ?_) v hi
      have := (List.getElem?_eq_some_iff.mp hi).1
      rw [hv] at this
      simpa using this
    · have : ∀ i ∈ List.range 2, (pt [2, 0] i).den = 1 := by decide +kernel
      intro i v hi _
      refine ⟨(pt [2, 0] i).num, (Rat.coe_int_num_of_den_eq_one (this i (List.mem_range.mpr ?_))).symm⟩
      have := (List.getElem?_eq_some_iff.mp hi).1
      rw [hv] at this
      simpa using this
    · have : ∀ c ∈ recTestQP.allCsts, c.sense = .le ∧ c.val (pt [2, 0]) ≤ c.rhs := by decide +kernel
      intro c hc
      rw [(this c hc).1]
      exact (this c hc).2

/-- The run: the optimum `x = 2`, `b = 0` of value 4, after four eliminations. -/
example : ∃ r, recursiveWith (fun _ => exhaustive) exhaustive none none 1 recTestQP 10 = some (.ok r) ∧
    r.result.x = some [2, 0] ∧ r.result.fval = some 4 ∧ r.point = [1, 1, 0, 0, 0] ∧
    r.replacements = [("x@1", "x@0", 1), ("b", "x@0", -1), ("c@int_slack@0", "x@0", -1),
      ("c@int_slack@1", "x@0", -1)] := run_check (by decide +kernel)

/-- `minimize -b0 / 10¹¹` with two binary variables. -/
def recTinyQP : QP :=
  (runCalls (QP.empty "") [.addVars (.count 2) 0 1 .binary (some "b") (.hole "" ""),
    .objective .minimize 0 (.dict [(.idx 0, -1 / 10 ^ 11)]) (.dict [])]).2

def recTinyState : QuboState :=
  match recTinyQP.toQubo none with
  | .ok st => st
  | .error _ => ⟨QP.empty "", QP.empty "", ⟨QP.empty "", QP.empty "", []⟩, QP.empty "", 0⟩

/-- **C80 fails** for tiny coefficients: for `minimize -b0 / 10¹¹` with exact solvers the first pair is identified with
the right sign, but the shift of the objective cuts the coefficient off, and the answer is `(0, 1)` although `b0 = 1` is better. -/
theorem C80_violated : ∃ (p : QP) (st : QuboState) (r : RecResult), p.WF ∧ p.ShapeOK ∧ p.toQubo none = .ok st ∧
    0 < st.dst.numVars ∧ "__CONSTANT__" ∉ st.dst.vars.map Variable.name ∧ ExactSolver exhaustive ∧
    recursiveWith (fun _ => exhaustive) exhaustive none none 1 p 10 = some (.ok r) ∧
    r.result.x = some [0, 1] ∧ r.result.fval = some 0 ∧ r.result.status = .success ∧ p.objective.sense = .minimize ∧
    p.isFeasible [1, 0] = .ok true ∧ p.objective.evaluate [1, 0] = .ok (-1 / 10 ^ 11) := by
  obtain ⟨r, h3, h4, h5, h6⟩ := run_check (o := recursiveWith (fun _ => exhaustive) exhaustive none none 1 recTinyQP 10)
    (P := fun r => r.result.x = some [0, 1] ∧ r.result.fval = some 0 ∧ r.result.status = .success) (by decide +kernel)
  exact ⟨recTinyQP, recTinyState, r, by decide +kernel, by decide +kernel, by decide +kernel, by decide +kernel,
    by decide +kernel, exhaustive_exact, h3, h4, h5, h6,
    by decide +kernel, by decide +kernel, by decide +kernel⟩

end Verif
