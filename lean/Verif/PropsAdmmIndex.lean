import Verif.AdmmSteps2
import Verif.PropsAdmm

/-!
# Properties of the ADMM optimizer: C36 (indices), C37 (residuals and penalty)
-/

namespace Verif

/-! ## C36 -/

/-- **C36** (reassembling): values of the binary and of the continuous variables, in the order of the variables, are put
at the positions of their variables; no other point has these values there; taking the values out again gives the
vectors. -/
theorem C36_reassemble (p : QP) (hni : ∀ v ∈ p.vars, v.vartype ≠ .integer) (b c : List ℚ)
    (hb : b.length = p.countType .binary) (hc : c.length = p.countType .continuous) :
    ∃ x, revertIndexes (variableIndices .binary p) (variableIndices .continuous p) b c = .ok x ∧ Assembles p b c x ∧
      (∀ y, Assembles p b c y → y = x) ∧ takeIdx x (variableIndices .binary p) = .ok b ∧
      takeIdx x (variableIndices .continuous p) = .ok c := by
  obtain ⟨x, h1, h2⟩ := revertIndexes_ok hni hb hc
  refine ⟨x, h1, h2, fun y hy => hy.unique hni h2, ?_, ?_⟩
  · exact takeIdx_assembled hb h2.1 fun i v hi hv => (h2.2 i v hi).1 hv
  · exact takeIdx_assembled hc h2.1 fun i v hi hv => (h2.2 i v hi).2 hv

example : (∀ v ∈ admmQP.vars, v.vartype ≠ .integer) ∧ [1, 0].length = admmQP.countType .binary ∧
    [7].length = admmQP.countType .continuous ∧
    revertIndexes (variableIndices .binary admmQP) (variableIndices .continuous admmQP) [1, 0] [7] = .ok [1, 7, 0] := by
  decide +kernel

/-- **C36** (splitting): splitting a point and reassembling the parts gives the point. -/
theorem C36_split (p : QP) (hni : ∀ v ∈ p.vars, v.vartype ≠ .integer) (x : List ℚ) (hx : x.length = p.numVars) :
    ∃ b c, takeIdx x (variableIndices .binary p) = .ok b ∧ takeIdx x (variableIndices .continuous p) = .ok c ∧
      b.length = p.countType .binary ∧ c.length = p.countType .continuous ∧ Assembles p b c x ∧
      revertIndexes (variableIndices .binary p) (variableIndices .continuous p) b c = .ok x := by
  have ht : ∀ t, takeIdx x (variableIndices t p) = .ok ((variableIndices t p).map (pt x)) := by
    intro t
    unfold takeIdx
    rw [if_pos]
    rw [List.all_eq_true]
    intro i hi
    have := variableIndices_lt hi
    simp [hx, this]
  have hl : ∀ t, ((variableIndices t p).map (pt x)).length = p.countType t := by
    intro t; rw [List.length_map, variableIndices_length]
  have hg : ∀ t i v, p.vars[i]? = some v → v.vartype = t →
      pt x i = pt ((variableIndices t p).map (pt x)) (p.rank t i) := by
    intro t i v hi hv
    have := (variableIndices_getElem? t p (p.rank t i) i).mpr ⟨v, hi, hv, rfl⟩
    simp [pt, List.getD_eq_getElem?_getD, this]
  have ha : Assembles p ((variableIndices .binary p).map (pt x)) ((variableIndices .continuous p).map (pt x)) x :=
    ⟨hx, fun i v hi => ⟨hg .binary i v hi, hg .continuous i v hi⟩⟩
  refine ⟨_, _, ht .binary, ht .continuous, hl _, hl _, ha, ?_⟩
  obtain ⟨y, h1, h2⟩ := revertIndexes_ok hni (hl .binary) (hl .continuous)
  rw [h1, h2.unique hni ha]

example : (∀ v ∈ admmQP.vars, v.vartype ≠ .integer) ∧ [1, 7, 0].length = admmQP.numVars := by decide +kernel

/-- **C36** (step 1): the variables of the step 1 program are exactly the binary variables with a non-zero linear
coefficient, a non-zero entry in their own row of the upper triangular matrix, or a positive coefficient in an equality
of binary variables; they are sorted, and their positions among the binary variables are computed correctly.
Missing (false by `C36_step1_violated`): variables that occur only as second factor of a product or with negative
coefficients only. -/
theorem C36_step1_partial (p : QP) (hp : p.WF) (r : AdmmRep) (h : admmRep p = .ok r) :
    r.step1Abs.Pairwise (· < ·) ∧
      (∀ i, i ∈ r.step1Abs ↔ (∃ v, p.vars[i]? = some v ∧ v.vartype = .binary) ∧
        ((Dict.get p.objective.linear.coeffs i ≠ 0 ∨ ∃ j, Dict.get p.objective.quadratic.coeffs (i, j) ≠ 0) ∨
          ∃ c ∈ p.lins, c.sense = .eq ∧
            (∀ k ∈ Assoc.keys c.linear.coeffs, ∃ v, p.vars[k]? = some v ∧ v.vartype = .binary) ∧
            0 < Dict.get c.linear.coeffs i)) ∧
      r.step1Rel = r.step1Abs.map (p.rank .binary) := by
  obtain ⟨h1, h2⟩ := step1Absolute_inv hp (admmRep_inv h).2.2.2.2.2.2.1
  refine ⟨h1, fun i => ?_, (step1Rel_inv hp h).1⟩
  rw [h2 i]
  simp only [InOwnRow, BinaryEquality]
  constructor
  · rintro ⟨a, b | ⟨c, ⟨c1, c2, c3⟩, c4⟩⟩
    · exact ⟨a, Or.inl b⟩
    · exact ⟨a, Or.inr ⟨c, c1, c2, c3, c4⟩⟩
  · rintro ⟨a, b | ⟨c, c1, c2, c3, c4⟩⟩
    · exact ⟨a, Or.inl b⟩
    · exact ⟨a, Or.inr ⟨c, ⟨c1, c2, c3⟩, c4⟩⟩

example : admmQP.WF ∧ (admmRep admmQP).toOption.map (fun r => (r.step1Abs, r.step1Rel)) = some ([0, 2], [0, 1]) := by
  decide +kernel

/-- **C36** (acceptance): the representation is computed for every program. -/
theorem C36_accepts (p : QP) (hp : p.WF) (hs : p.ShapeOK) : ∃ r, admmRep p = .ok r := admmRep_ok hp hs

example : admmQP.WF ∧ admmQP.ShapeOK := by decide +kernel

/-- **C36** (consequence): a binary variable that is not in the step 1 program is zero in the returned point, whatever
the solvers answer, unless there is a warm start and no step 1 variable at all. -/
theorem C36_omitted_zero (qubo cont : Solver) (norm : List ℚ → ℚ) (clock : Nat → Bool) (prm : AdmmParams) (p : QP)
    (hp : p.WF) (hni : ∀ v ∈ p.vars, v.vartype ≠ .integer) (a : AdmmResult)
    (h : admmSolve qubo cont norm clock prm p = .ok a) (hw : prm.warmStart = false ∨ a.rep.step1Abs ≠ [])
    (i : Nat) (v : Variable) (hi : p.vars[i]? = some v) (hv : v.vartype = .binary) (hout : i ∉ a.rep.step1Abs) :
    ∃ y, a.result.x = some y ∧ pt y i = 0 := by
  obtain ⟨conv, q, start, hist, hf⟩ := admmSolve_facts hp h
  obtain ⟨rfl, y, y1, y2, y3, _⟩ := hf.plain hp hni
  refine ⟨y, y1, ?_⟩
  have hil := (List.getElem?_eq_some_iff.mp hi).1
  rw [y3 i hil]
  obtain ⟨k, it, k1, k2, _⟩ := hf.best
  obtain ⟨q', hq', _, _, hvars, _⟩ := turnToMinimization_sign p
  have hqq := hf.turn
  rw [hq', Except.ok.injEq] at hqq
  subst hqq
  have hi' : q'.vars[i]? = some v := by rw [hvars]; exact hi
  rw [(k2.2 i v hi').1 hv]
  refine ran_zero hf.wf hf.rep hf.ran ?_ hi' hv hout k it k1
  rcases hw with hw | hw
  · right
    intro j
    have := hf.hstart
    rw [hw] at this
    simp only [Bool.false_eq_true, if_false, Except.ok.injEq] at this
    rw [← this]
    simp only [admmInit, pt, List.getD_eq_getElem?_getD, List.getElem?_replicate]
    split <;> rfl
  · exact Or.inl hw

/-- Two binary variables, the product is maximized. -/
def admmProductQP : QP :=
  (runCalls (QP.empty "") [.addVar 0 1 .binary (some "a"), .addVar 0 1 .binary (some "b"),
    .objective .maximize 0 (.dict []) (.dict [((.idx 0, .idx 1), 1)])]).2

example : admmProductQP.WF ∧ (∀ v ∈ admmProductQP.vars, v.vartype ≠ .integer) ∧
    (admmSolve (fun _ _ => .ok [1]) (fun _ _ => .ok [1, 1]) norm1 (fun _ => true) (admmDefaults 2) admmProductQP).toOption.map
      (fun a => (a.rep.step1Abs, a.result.x)) = some ([0], some [1, 0]) := by decide +kernel

/-- One binary variable with `-x = -1`. -/
def admmNegativeQP : QP :=
  (runCalls (QP.empty "") [.addVar 0 1 .binary (some "a"), .linear (.dict [(.idx 0, -1)]) (.sense .eq) (-1) (some "c"),
    .objective .minimize 0 (.dict []) (.dict [])]).2

/-- **C36 fails** (step 1): variable 1 occurs in the objective but not in the step 1 program. -/
theorem C36_step1_violated : ∃ (p : QP) (r : AdmmRep) (i j : Nat), p.WF ∧ p.ShapeOK ∧ admmRep p = .ok r ∧
    (∃ v, p.vars[j]? = some v ∧ v.vartype = .binary) ∧ Dict.get p.objective.quadratic.coeffs (i, j) ≠ 0 ∧
    j ∉ r.step1Abs := by
  have h : (admmRep admmProductQP).toOption.map AdmmRep.step1Abs = some [0] := by decide +kernel
  cases hr : admmRep admmProductQP with
  | error e => simp [hr, Except.toOption] at h
  | ok r =>
    simp only [hr, Except.toOption, Option.map_some, Option.some.injEq] at h
    exact ⟨admmProductQP, r, 0, 1, by decide +kernel, by decide +kernel, hr,
      ⟨⟨"b", 0, 1, .binary⟩, by decide +kernel, rfl⟩, by decide +kernel, by rw [h]; simp⟩

/-- **C36 fails** (step 1, equalities): the variable of `-x = -1` is not in the step 1 program. -/
theorem C36_equality_violated : ∃ (p : QP) (r : AdmmRep) (c : LinCst), p.WF ∧ p.ShapeOK ∧ admmRep p = .ok r ∧
    c ∈ p.lins ∧ c.sense = .eq ∧ (∀ k ∈ Assoc.keys c.linear.coeffs, ∃ v, p.vars[k]? = some v ∧ v.vartype = .binary) ∧
    Dict.get c.linear.coeffs 0 ≠ 0 ∧ 0 ∉ r.step1Abs := by
  have h : (admmRep admmNegativeQP).toOption.map AdmmRep.step1Abs = some [] := by decide +kernel
  cases hr : admmRep admmNegativeQP with
  | error e => simp [hr, Except.toOption] at h
  | ok r =>
    simp only [hr, Except.toOption, Option.map_some, Option.some.injEq] at h
    refine ⟨admmNegativeQP, r, ⟨"c", ⟨1, [(0, -1)]⟩, .eq, -1⟩, by decide +kernel, by decide +kernel, hr,
      by decide +kernel, rfl, ?_, by decide +kernel, by rw [h]; simp⟩
    intro k hk
    have : k = 0 := by simpa [Assoc.keys] using hk
    subst this
    exact ⟨⟨"a", 0, 1, .binary⟩, by decide +kernel, rfl⟩

/-- **C36 fails** (consequence): whatever the two solvers answer, with all parameters, the optimum of `max a * b` is
never returned: the value of the result is 0. -/
theorem C36_product_violated (qubo cont : Solver) (norm : List ℚ → ℚ) (clock : Nat → Bool) (prm : AdmmParams)
    (a : AdmmResult) (h : admmSolve qubo cont norm clock prm admmProductQP = .ok a) :
    a.result.fval = some 0 ∧ admmProductQP.isFeasible [1, 1] = .ok true ∧
      admmProductQP.objective.val (pt [1, 1]) = 1 := by
  refine ⟨?_, by decide +kernel, by decide +kernel⟩
  have hp : admmProductQP.WF := by decide +kernel
  have hni : ∀ v ∈ admmProductQP.vars, v.vartype ≠ .integer := by decide +kernel
  obtain ⟨conv, q, start, hist, hf⟩ := admmSolve_facts hp h
  obtain ⟨rfl, y, y1, y2, y3, y4⟩ := hf.plain hp hni
  have ht : turnToMinimization admmProductQP = .ok q := hf.turn
  have hr : ∃ r, admmRep q = .ok r ∧ r.step1Abs = [0] := by
    have : (turnToMinimization admmProductQP).toOption.map (fun q => (admmRep q).toOption.map AdmmRep.step1Abs) =
      some (some [0]) := by decide +kernel
    rw [ht] at this
    simp only [Except.toOption, Option.map_some, Option.some.injEq] at this
    cases hq : admmRep q with
    | error e => simp [hq] at this
    | ok r => exact ⟨r, rfl, by simpa [hq] using this⟩
  obtain ⟨r, r1, r2⟩ := hr
  have hrr := hf.rep
  rw [r1, Except.ok.injEq] at hrr
  subst hrr
  obtain ⟨y', h1, h2⟩ := C36_omitted_zero qubo cont norm clock prm _ hp hni a h (Or.inr (by rw [r2]; simp)) 1
    ⟨"b", 0, 1, .binary⟩ (by decide +kernel) rfl (by rw [r2]; simp)
  rw [y1, Option.some.injEq] at h1
  subst h1
  rw [y4]
  have : admmProductQP.objective.val (pt y) = pt y 0 * pt y 1 := by
    have e : admmProductQP.objective = ⟨0, ⟨2, []⟩, ⟨2, [((0, 1), 1)]⟩, .maximize⟩ := by decide +kernel
    rw [e]
    simp [Objective.val, LinExpr.val, QuadExpr.val, Dict.sum]
  rw [this, h2, mul_zero]

/-! ## C37 -/

/-- **C37** (what is recorded): the dual residual of iteration `k` is `rho` times the norm of the difference of `z` and
entry `k - 1` of the list in which `z` and `y` of all iterations alternate; zero takes the place of that entry in
iteration 0.  The primal residual is the norm of `x0 - z - y`. -/
theorem C37_trace (qubo cont : Solver) (norm : List ℚ → ℚ) (clock : Nat → Bool) (prm : AdmmParams) (p : QP) (hp : p.WF)
    (a : AdmmResult) (h : admmSolve qubo cont norm clock prm p = .ok a) :
    ∃ hist : List Iterate, a.state.x0Saved = hist.map Iterate.x0 ∧
      a.state.zSaved = hist.flatMap (fun h => [h.z, h.y]) ∧
      (∀ h, hist[0]? = some h → h.rho = prm.rhoInitial) ∧
      ∀ (k : Nat) (g : Iterate), hist[k]? = some g →
        a.state.residuals[k]? = some (norm (vsub (vsub g.x0 g.z) g.y)) ∧
        (∃ w, (k = 0 → ∀ i, pt w i = 0) ∧ (0 < k → a.state.zSaved[k - 1]? = some w) ∧
          a.state.dualResiduals[k]? = some (g.rho * norm (vsub g.z w))) ∧
        ∀ g' : Iterate, hist[k + 1]? = some g' → ∃ d e, a.state.residuals[k]? = some d ∧
          a.state.dualResiduals[k]? = some e ∧ g'.rho = updateRho prm g.rho d e := by
  obtain ⟨conv, q, start, hist, hf⟩ := admmSolve_facts hp h
  refine ⟨hist, hf.trace.x0s, hf.trace.zs, fun h hh => (hf.trace.first h hh).1, fun k g hk => ?_⟩
  have hs := hf.trace.steps k g hk
  refine ⟨hs.primal, ?_, fun g' hk' => ?_⟩
  · obtain ⟨w, w1, w2, w3⟩ := hs.dual
    refine ⟨w, fun hk0 i => ?_, w2, w3⟩
    rw [w1 hk0]
    simp only [pt, List.getD_eq_getElem?_getD, List.getElem?_replicate]
    split <;> rfl
  · obtain ⟨d, e, h1, h2, h3, _⟩ := hf.trace.next k g g' hk hk'
    exact ⟨d, e, h1, h2, h3⟩

example : admmQP.WF ∧ (admmSolve admmQubo admmCont norm1 (fun _ => true) (admmDefaults 2) admmQP).toOption.map
    (fun a => (a.state.x0Saved, a.state.zSaved, a.state.dualResiduals)) =
      some ([[0, 0], [1, 0]], [[1, 0], [0, 0], [1, 0], [0, 0]], [10000, 0]) := by decide +kernel

theorem flatMap_pair_getElem? {α β : Type} (f g : α → β) (l : List α) (k : Nat) (a : α) (h : l[k]? = some a) :
    (l.flatMap fun x => [f x, g x])[2 * k]? = some (f a) ∧ (l.flatMap fun x => [f x, g x])[2 * k + 1]? = some (g a) := by
  induction l generalizing k with
  | nil => simp at h
  | cons b l ih =>
    cases k with
    | zero =>
      simp only [List.getElem?_cons_zero, Option.some.injEq] at h
      subst h; simp
    | succ k =>
      rw [List.getElem?_cons_succ] at h
      obtain ⟨h1, h2⟩ := ih k h
      constructor
      · rw [List.flatMap_cons, List.getElem?_append_right (by simp)]
        rw [← h1]; congr 1
      · rw [List.flatMap_cons, List.getElem?_append_right (by simp; omega)]
        rw [← h2]; congr 1

/-- **C37** (dual residual): the dual residual of iteration 1 is `rho` times the norm of the change of `z` since
iteration 0; that of iteration 0 is the change since zero, where `z` is initially unless there is a warm start.
Missing (false by `C37_dual_violated`): the later iterations. -/
theorem C37_dual_partial (qubo cont : Solver) (norm : List ℚ → ℚ) (clock : Nat → Bool) (prm : AdmmParams) (p : QP)
    (hp : p.WF) (a : AdmmResult) (h : admmSolve qubo cont norm clock prm p = .ok a) :
    ∃ hist : List Iterate, hist.length = a.state.x0Saved.length ∧
      (∀ (k : Nat) (g : Iterate), hist[k]? = some g → a.state.zSaved[2 * k]? = some g.z) ∧
      (∀ g : Iterate, hist[0]? = some g → g.rho = prm.rhoInitial ∧
        a.state.dualResiduals[0]? = some (g.rho * norm (vsub g.z (List.replicate g.z.length 0)))) ∧
      ∀ g g' : Iterate, hist[0]? = some g → hist[1]? = some g' →
        a.state.dualResiduals[1]? = some (g'.rho * norm (vsub g'.z g.z)) := by
  obtain ⟨conv, q, start, hist, hf⟩ := admmSolve_facts hp h
  have hz : ∀ (k : Nat) (g : Iterate), hist[k]? = some g → a.state.zSaved[2 * k]? = some g.z := by
    intro k g hk
    rw [hf.trace.zs]
    exact (flatMap_pair_getElem? Iterate.z Iterate.y hist k g hk).1
  refine ⟨hist, by rw [hf.trace.x0s, List.length_map], hz, fun g hg => ⟨(hf.trace.first g hg).1, ?_⟩,
    fun g g' hg hg' => ?_⟩
  · obtain ⟨w, w1, _, w3⟩ := (hf.trace.steps 0 g hg).dual
    rw [w3, w1 rfl, (hf.trace.steps 0 g hg).lz]
  · obtain ⟨w, _, w2, w3⟩ := (hf.trace.steps 1 g' hg').dual
    have h0 := hz 0 g hg
    have := w2 (by omega)
    simp only [Nat.sub_self, Nat.mul_zero] at this h0
    rw [h0, Option.some.injEq] at this
    rw [w3, this]

/-- One binary variable. -/
def admmOneQP : QP :=
  (runCalls (QP.empty "") [.addVar 0 1 .binary (some "a"), .objective .minimize 0 (.list [1]) (.dict [])]).2

/-- **C37 fails** (dual residual): in this run `z` does not change between iterations 1 and 2, and the dual residual of
iteration 2 is not zero; `z` of iteration 2 was compared with `y` of iteration 0. -/
theorem C37_dual_violated : ∃ (qubo cont : Solver) (prm : AdmmParams) (p : QP) (a : AdmmResult) (z : List ℚ) (d : ℚ),
    p.WF ∧ admmSolve qubo cont norm1 (fun _ => true) prm p = .ok a ∧ a.state.zSaved[2 * 1]? = some z ∧
      a.state.zSaved[2 * 2]? = some z ∧ a.state.dualResiduals[2]? = some d ∧ d ≠ 0 ∧ norm1 (vsub z z) = 0 := by
  have h : (admmSolve (fun _ _ => .ok [0]) (fun t _ => .ok [if t % 2 = 1 then 1 else 0]) norm1 (fun _ => true)
      (admmDefaults 3) admmOneQP).toOption.map (fun a => (a.state.zSaved[2]?, a.state.zSaved[4]?,
        a.state.dualResiduals[2]?.map fun d => decide (d = 0))) = some (some [1], some [1], some false) := by decide +kernel
  cases hs : admmSolve (fun _ _ => .ok [0]) (fun t _ => .ok [if t % 2 = 1 then 1 else 0]) norm1 (fun _ => true)
      (admmDefaults 3) admmOneQP with
  | error e => simp [hs, Except.toOption] at h
  | ok a =>
    simp only [hs, Except.toOption, Option.map_some, Option.some.injEq, Prod.mk.injEq] at h
    obtain ⟨h1, h2, h3⟩ := h
    cases hd : a.state.dualResiduals[2]? with
    | none => simp [hd] at h3
    | some d =>
      rw [hd] at h3
      exact ⟨_, _, _, _, a, [1], d, by decide +kernel, hs, h1, h2, hd, by simpa using h3, by decide +kernel⟩

/-- **C37** (penalty, primal residual dominates): with residual balancing the penalty is increased. -/
theorem C37_rho_increase (prm : AdmmParams) (rho primal dual : ℚ) (hv : prm.varyRho = 1) (ht : 1 < prm.tauIncr)
    (hr : 0 < rho) (h : prm.muRes * dual < primal) :
    updateRho prm rho primal dual = prm.tauIncr * rho ∧ rho < updateRho prm rho primal dual := by
  have : updateRho prm rho primal dual = prm.tauIncr * rho := by simp [updateRho, hv, h]
  rw [this]
  exact ⟨rfl, by nlinarith⟩

theorem not_dominated {mu primal dual : ℚ} (hm : 1 < mu) (hp : 0 ≤ primal) (h : mu * primal < dual) :
    ¬ mu * dual < primal := by
  have h1 : primal ≤ mu * primal := by nlinarith
  have h2 : 0 < dual := by linarith
  have h3 : dual ≤ mu * dual := by nlinarith
  linarith

/-- **C37 fails** (penalty, dual residual dominates): with parameters greater than one, among them the default ones,
the penalty is increased whenever the dual residual dominates. -/
theorem C37_rho_violated (prm : AdmmParams) (rho primal dual : ℚ) (hv : prm.varyRho = 1) (ht : 1 < prm.tauDecr)
    (hm : 1 < prm.muRes) (hr : 0 < rho) (hp : 0 ≤ primal) (h : prm.muRes * primal < dual) :
    rho < updateRho prm rho primal dual := by
  have h1 : ¬ prm.muRes * dual < primal := not_dominated hm hp h
  have : updateRho prm rho primal dual = prm.tauDecr * rho := by simp [updateRho, hv, h1, h]
  rw [this]; nlinarith

/-- **C37** (penalty): it is decreased when the dual residual dominates if the factor is below one, and kept if
neither residual dominates.  Missing (false by `C37_rho_violated`): factors greater than one. -/
theorem C37_rho_partial (prm : AdmmParams) (rho primal dual : ℚ) (hv : prm.varyRho = 1) (hm : 1 < prm.muRes)
    (hr : 0 < rho) (hp : 0 ≤ primal) :
    (prm.tauDecr < 1 → prm.muRes * primal < dual → updateRho prm rho primal dual < rho) ∧
      (primal ≤ prm.muRes * dual → dual ≤ prm.muRes * primal → updateRho prm rho primal dual = rho) := by
  constructor
  · intro ht h
    have h1 : ¬ prm.muRes * dual < primal := not_dominated hm hp h
    have : updateRho prm rho primal dual = prm.tauDecr * rho := by simp [updateRho, hv, h1, h]
    rw [this]; nlinarith
  · intro h1 h2
    simp [updateRho, hv, not_lt.mpr h1, not_lt.mpr h2]

/-- **C37** (penalty, ten percent rule): the penalty grows by ten percent until it reaches 10 ^ 10. -/
theorem C37_rho_ten_percent (prm : AdmmParams) (rho primal dual : ℚ) (hv : prm.varyRho = 0) (hr : 0 < rho) :
    (rho < 10 ^ 10 → updateRho prm rho primal dual = rho + rho / 10) ∧
      (10 ^ 10 ≤ rho → updateRho prm rho primal dual = rho) := by
  constructor
  · intro h
    simp only [updateRho, hv, if_true, h]; ring
  · intro h
    simp [updateRho, hv, not_lt.mpr h]

example : ∃ prm : AdmmParams, prm.varyRho = 1 ∧ 1 < prm.tauIncr ∧ 1 < prm.tauDecr ∧ 1 < prm.muRes ∧
    updateRho prm 3 100 1 = 6 ∧ updateRho prm 3 1 100 = 6 ∧ updateRho prm 3 1 1 = 3 ∧
    updateRho { prm with tauDecr := 1 / 2 } 3 1 100 = 3 / 2 ∧ updateRho { prm with varyRho := 0 } 3 1 1 = 33 / 10 :=
  ⟨{ admmDefaults 1 with varyRho := 1 }, by decide +kernel⟩

end Verif
