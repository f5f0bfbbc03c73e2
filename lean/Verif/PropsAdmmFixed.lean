import Verif.PropsAdmmConverge
import Verif.PropsAdmmContinuous

/-!
# The continuous variables of ADMM for the binary values it returns (C113)
-/

namespace Verif

/-! ## Specifications -/

/-- The bounds of the continuous variables and all constraints but the equalities of binary variables hold. -/
structure QP.SatRest (q : QP) (x : Nat → ℚ) : Prop where
  bounds : ∀ i v, q.vars[i]? = some v → v.vartype = .continuous → v.lb ≤ x i ∧ x i ≤ v.ub
  csts : ∀ c ∈ q.allCsts, (∀ l, c = .lin l → l.isBinEq q = false) → c.sense.rel (c.val x) c.rhs

/-- The binary variables have the same values. -/
def QP.SameBinary (q : QP) (x y : Nat → ℚ) : Prop :=
  ∀ i v, q.vars[i]? = some v → v.vartype = .binary → x i = y i

/-- The point satisfies the constraints, and no point that satisfies them and has the same binary values has a smaller
objective value. -/
def QP.BestForBinary (q : QP) (x : Nat → ℚ) : Prop :=
  q.SatRest x ∧ ∀ y, q.SameBinary x y → q.SatRest y → q.objective.val x ≤ q.objective.val y

/-! ## Lemmas -/

theorem binSum_same {q : QP} {x y : Nat → ℚ} (h : q.SameBinary x y) (f : Nat → Nat → ℚ → ℚ) :
    (q.binSum fun i j => f i j (x i)) = q.binSum fun i j => f i j (y i) := by
  simp only [binSum_range]
  refine Finset.sum_congr rfl fun i hi => ?_
  by_cases hb : q.isBinary i = true
  · rw [if_pos hb, if_pos hb]
    obtain ⟨v, hv, ht⟩ := mem_variableIndices.mp (isBinary_iff.mp hb)
    rw [h i v hv ht]
  · rw [if_neg hb, if_neg hb]

/-- What is feasible in step 2. -/
theorem step2_satRest {q op : QP} (hni : ∀ v ∈ q.vars, v.vartype ≠ .integer)
    (f1 : op.vars = q.vars.map fun v => if v.vartype = .binary then ⟨v.name, 0, 1, .continuous⟩ else v)
    (f2 : op.lins = q.lins.filter fun c => !c.isBinEq q) (f3 : op.quads = q.quads) (x : Nat → ℚ) :
    op.Feas x ↔ q.SatRest x ∧ ∀ i v, q.vars[i]? = some v → v.vartype = .binary → 0 ≤ x i ∧ x i ≤ 1 := by
  have hs : op.Sat x ↔ ∀ c ∈ q.allCsts, (∀ l, c = .lin l → l.isBinEq q = false) → c.sense.rel (c.val x) c.rhs := by
    unfold QP.Sat QP.allCsts
    rw [f2, f3]
    simp only [List.mem_append, List.mem_map, List.mem_filter, Bool.not_eq_true']
    constructor
    · rintro h c (⟨l, hl, rfl⟩ | hq) hb
      · exact h _ (.inl ⟨l, ⟨hl, hb l rfl⟩, rfl⟩)
      · exact h _ (.inr hq)
    · rintro h c (⟨l, ⟨hl, hb⟩, rfl⟩ | ⟨l, hq, rfl⟩)
      · exact h _ (.inl ⟨l, hl, rfl⟩) fun l' e => by cases e; exact hb
      · exact h _ (.inr ⟨l, hq, rfl⟩) fun l' e => by cases e
  have hb : op.InBounds x ↔ (∀ i v, q.vars[i]? = some v → v.vartype = .continuous → v.lb ≤ x i ∧ x i ≤ v.ub) ∧
      ∀ i v, q.vars[i]? = some v → v.vartype = .binary → 0 ≤ x i ∧ x i ≤ 1 := by
    unfold QP.InBounds
    rw [f1]
    simp only [List.getElem?_map, Option.map_eq_some_iff]
    constructor
    · intro h
      exact ⟨fun i v hv ht => by have := h i _ ⟨v, hv, rfl⟩; rwa [if_neg (by rw [ht]; simp)] at this,
        fun i v hv ht => by have := h i _ ⟨v, hv, rfl⟩; rwa [if_pos ht] at this⟩
    · rintro ⟨h1, h2⟩ i _ ⟨v, hv, rfl⟩
      cases ht : v.vartype with
      | binary => simpa [ht] using h2 i v hv ht
      | continuous => simpa [ht] using h1 i v hv ht
      | integer => exact absurd ht (hni v (List.mem_of_getElem? hv))
  have hi : op.Integral x := by
    intro i w hw ht
    rw [f1, List.getElem?_map, Option.map_eq_some_iff] at hw
    obtain ⟨v, hv, rfl⟩ := hw
    cases hv' : v.vartype with
    | binary => simp [hv'] at ht
    | continuous => simp [hv'] at ht
    | integer => exact absurd hv' (hni v (List.mem_of_getElem? hv))
  unfold QP.Feas
  rw [hs, hb]
  exact ⟨fun h => ⟨⟨h.1.1, h.2.2⟩, h.1.2⟩, fun h => ⟨⟨h.1.1, h.2⟩, hi, h.1.2⟩⟩

/-- The answer of step 2. -/
theorem step2_best {qubo cont : Solver} {norm : List ℚ → ℚ} {prm : AdmmParams} {p : QP} {a : AdmmResult}
    {conv : I2B} {q : QP} {start : AdmmState} {hist : List Iterate}
    (hf : AdmmFacts qubo cont norm prm p a conv q start hist)
    (hcont : ∀ t op v, cont t op = .ok v → OptimalIn op.Feas op.objective (pt v)) {k : Nat} {g : Iterate}
    (hk : hist[k]? = some g) : ∃ v, Assembles q g.z g.u v ∧ q.BestForBinary (pt v) := by
  obtain ⟨s, _, _, _, _, s5, _⟩ := iteration_facts hf hk
  obtain ⟨op, v, v1, v2, v3, v4, v5⟩ := updateX1_inv hf.rep s5
  obtain ⟨f1, f2, f3, f4, _, f6, _⟩ := step2_facts hf.wf hf.rep v1
  obtain ⟨q', hq', hs, _⟩ := turnToMinimization_sign conv.dst
  have hqq := hf.turn
  rw [hq', Except.ok.injEq] at hqq
  subst hqq
  obtain ⟨o1, o2⟩ := hcont _ _ _ v2
  have hfeas := step2_satRest hf.noInt f1 f2 f3
  obtain ⟨r1, r2⟩ := (hfeas _).mp o1
  refine ⟨v, ⟨by rw [v3, QP.numVars, QP.numVars, f1, List.length_map], fun i w hi => ⟨fun hw => takeIdx_pt v5 hi hw,
    fun hw => takeIdx_pt v4 hi hw⟩⟩, r1, fun y hy hsat => ?_⟩
  have := o2 y ((hfeas y).mpr ⟨hsat, fun i w hi hw => by rw [← hy i w hi hw]; exact r2 i w hi hw⟩)
  rw [f4, hs] at this
  simp only [ObjSense.value, one_mul] at this
  have e1 := f6 (pt v)
  have e2 := f6 y
  rw [binSum_same hy (fun i j t => Dict.get q'.objective.linear.coeffs i * t +
      Dict.get q'.objective.quadratic.coeffs (i, i) * (t * t)),
    binSum_same hy (fun i j t => (-pt s.lam j - s.rho * (pt g.x0 j - pt s.y j)) * t + s.rho / 2 * (t * t))] at e1
  linarith

/-- Without the third block an iterate with residual zero is the answer of step 2. -/
theorem zero_residual {qubo cont : Solver} {norm : List ℚ → ℚ} {prm : AdmmParams} {p : QP} {a : AdmmResult}
    {conv : I2B} {q : QP} {start : AdmmState} {hist : List Iterate}
    (hf : AdmmFacts qubo cont norm prm p a conv q start hist) (hnorm : ∀ v i, |pt v i| ≤ norm v)
    (h2 : prm.threeBlock = false) {k : Nat} {g : Iterate} (hk : hist[k]? = some g)
    (hr : a.state.residuals[k]? = some 0) {x v : List ℚ} (hx : Assembles q g.x0 g.u x) (hv : Assembles q g.z g.u v) :
    x = v := by
  have hi := hf.trace.steps k g hk
  have h0 := y_zero hf h2 k g hk
  have hz : norm (vsub (vsub g.x0 g.z) g.y) = 0 := by
    have := hi.primal
    rw [hr, Option.some.injEq] at this
    exact this.symm
  have hbin : ∀ i, pt g.x0 i = pt g.z i := by
    intro i
    have := binary_distance hnorm (hi.lx.trans hi.lz.symm) (hi.lx.trans hi.ly.symm) i
    rw [hz, h0, abs_zero, add_zero] at this
    exact sub_eq_zero.mp (abs_nonpos_iff.mp this)
  refine Assembles.unique hf.noInt hx ⟨hv.1, fun i w hw => ⟨fun ht => ?_, (hv.2 i w hw).2⟩⟩
  rw [(hv.2 i w hw).1 ht, hbin]

/-! ## C113 -/

/-- **C113** (every iterate): if the answers of the continuous optimizer are optimal, then in every iteration the continuous
variables `u` are optimal for the values `z` of the binary variables: they satisfy the constraints together with `z`, and no
other values that do have a smaller objective value. -/
theorem C113_step2 (qubo cont : Solver) (norm : List ℚ → ℚ) (clock : Nat → Bool) (prm : AdmmParams) (p : QP)
    (hp : p.WF) (hcont : ∀ t op v, cont t op = .ok v → OptimalIn op.Feas op.objective (pt v))
    (a : AdmmResult) (h : admmSolve qubo cont norm clock prm p = .ok a) :
    ∃ conv q, p.intToBin = .ok conv ∧ turnToMinimization conv.dst = .ok q ∧ ∃ hist : List Iterate,
      a.state.uSaved = hist.map Iterate.u ∧ a.state.zSaved = hist.flatMap (fun h => [h.z, h.y]) ∧
      ∀ (k : Nat) (g : Iterate), hist[k]? = some g → ∃ v, Assembles q g.z g.u v ∧ q.BestForBinary (pt v) := by
  obtain ⟨conv, q, start, hist, hf⟩ := admmSolve_facts hp h
  exact ⟨conv, q, hf.hconv, hf.turn, hist, hf.trace.us, hf.trace.zs, fun k g hk => step2_best hf hcont hk⟩

/-- **C113** (partial: two blocks, residual zero).  Full statement: the continuous variables that ADMM returns are optimal
for the binary values that it returns.  Missing (false by `C113_violated`): iterates with another residual, and the third
block.  Here: for programs without integer variables and without the third block, if the residual of the returned iterate is
zero, the returned point satisfies all constraints but the equalities of binary variables, and is optimal among all such
points with the same binary values. -/
theorem C113_returned_partial (qubo cont : Solver) (norm : List ℚ → ℚ) (clock : Nat → Bool) (prm : AdmmParams) (p : QP)
    (hp : p.WF) (hni : ∀ v ∈ p.vars, v.vartype ≠ .integer)
    (hcont : ∀ t op v, cont t op = .ok v → OptimalIn op.Feas op.objective (pt v)) (hnorm : ∀ v i, |pt v i| ≤ norm v)
    (h2 : prm.threeBlock = false) (a : AdmmResult) (h : admmSolve qubo cont norm clock prm p = .ok a) :
    ∃ (k : Nat) (b c y : List ℚ), a.state.x0Saved[k]? = some b ∧ a.state.uSaved[k]? = some c ∧ Assembles p b c y ∧
      a.result.x = some y ∧ (a.state.residuals[k]? = some 0 →
        OptimalIn (fun x => p.SatRest x ∧ p.SameBinary (pt y) x) p.objective (pt y)) := by
  obtain ⟨conv, q, start, hist, hf⟩ := admmSolve_facts hp h
  obtain ⟨rfl, y, y1, y2, y3, _⟩ := hf.plain hp hni
  obtain ⟨k, it, k1, k2, _⟩ := hf.best
  obtain ⟨q', hq', _, hval, hv, _, hl, hqu⟩ := turnToMinimization_sign p
  have hqq := hf.turn
  rw [hq', Except.ok.injEq] at hqq
  subst hqq
  have hn : q'.numVars = p.numVars := by rw [QP.numVars, hv, QP.numVars]
  have hpy : pt y = pt a.point := pt_ext y2 (k2.1.trans hn) y3
  have hay : a.point = y := by
    refine List.ext_getElem (k2.1.trans (hn.trans y2.symm)) fun i h1 h2 => ?_
    have := congrFun hpy i
    simp only [pt, List.getD_eq_getElem?_getD, List.getElem?_eq_getElem h1, List.getElem?_eq_getElem h2,
      Option.getD_some] at this
    exact this.symm
  have hrank : ∀ t i, q'.rank t i = p.rank t i := fun t i => by unfold QP.rank; rw [hv]
  have hbe : ∀ l : LinCst, l.isBinEq q' = l.isBinEq p := fun l => by unfold LinCst.isBinEq QP.isBinary; rw [hv]
  have hrest : ∀ x, q'.SatRest x ↔ p.SatRest x := by
    intro x
    constructor <;> rintro ⟨r1, r2⟩ <;> refine ⟨fun i v => ?_, fun c hc hb => ?_⟩
    · rw [← hv]; exact r1 i v
    · exact r2 c (by unfold QP.allCsts at hc ⊢; rwa [hl, hqu]) fun l e => by rw [hbe]; exact hb l e
    · rw [hv]; exact r1 i v
    · exact r2 c (by unfold QP.allCsts at hc ⊢; rwa [hl, hqu] at hc) fun l e => by rw [← hbe]; exact hb l e
  refine ⟨k, it.x0, it.u, y, by rw [hf.trace.x0s, List.getElem?_map, k1]; rfl,
    by rw [hf.trace.us, List.getElem?_map, k1]; rfl, ?_, y1, fun hr => ?_⟩
  · refine ⟨y2, fun i v hi => ?_⟩
    have := k2.2 i v (by rw [hv]; exact hi)
    rwa [hay, hrank, hrank] at this
  · obtain ⟨v, v1, v2, v3⟩ := step2_best hf hcont k1
    have := zero_residual hf hnorm h2 k1 hr k2 v1
    rw [hay] at this
    subst this
    refine ⟨⟨(hrest _).mp v2, fun i v _ _ => rfl⟩, fun x ⟨hx1, hx2⟩ => ?_⟩
    have := v3 x (fun i v hi ht => hx2 i v (by rw [← hv]; exact hi) ht) ((hrest _).mpr hx1)
    rw [hval, hval] at this
    cases hs : p.objective.sense with
    | minimize => simpa [hs, ObjSense.value] using this
    | maximize => simpa [hs, ObjSense.value] using this

/-! ## A run without the third block -/

/-- Minimize `b + c` for a binary variable `b` and a continuous variable `c` with `c >= 1`. -/
def admmSplitQP : QP :=
  (runCalls (QP.empty "") [.addVar 0 1 .binary (some "b"), .addVar 0 10 .continuous (some "c"),
    .linear (.dict [(.idx 1, 1)]) (.sense .ge) 1 (some "r"),
    .objective .minimize 0 (.dict [(.idx 0, 1), (.idx 1, 1)]) (.dict [])]).2

/-- The default parameters without the third block. -/
def admmTwo (n : Nat) : AdmmParams := { admmDefaults n with threeBlock := false }

/-- The program of step 2 in the first iteration. -/
def splitOp2 : QP :=
  match admmRep admmSplitQP with
  | .error _ => QP.empty ""
  | .ok r => match step2Problem r (admmInit (admmTwo 1) admmSplitQP) with
    | .error _ => QP.empty ""
    | .ok op => op

/-- An exact solver for the programs of this run. -/
def exactSplit : Solver := fun t op => if op = splitOp2 then .ok [0, 1] else exactOne t op

theorem exactSplit_optimal (t : Nat) (op : QP) (w : List ℚ) (h : exactSplit t op = .ok w) :
    OptimalIn op.Feas op.objective (pt w) := by
  unfold exactSplit at h
  split at h
  swap
  · exact exactOne_optimal t op w h
  rename_i ho
  simp only [Except.ok.injEq] at h
  subst h ho
  have hv : splitOp2.vars = [⟨"b", 0, 1, .continuous⟩, ⟨"c", 0, 10, .continuous⟩] := by decide +kernel
  have hl : splitOp2.lins.map (fun c => (c.linear.coeffs, c.sense, c.rhs)) = [([(1, 1)], .ge, 1)] := by decide +kernel
  have hq : splitOp2.quads = [] := by decide +kernel
  have h1 : splitOp2.objective.linear.coeffs = [(1, 1)] := by decide +kernel
  have h2 : splitOp2.objective.quadratic.coeffs = [((0, 0), 5000)] := by decide +kernel
  have h3 : splitOp2.objective.constant = 0 := by decide +kernel
  have h4 : splitOp2.objective.sense = .minimize := by decide +kernel
  have hval : ∀ x, splitOp2.objective.val x = x 1 + 5000 * (x 0 * x 0) := by
    intro x
    simp [Objective.val, LinExpr.val, QuadExpr.val, h1, h2, h3, Dict.sum]
  have hsat : ∀ x, splitOp2.Sat x ↔ 1 ≤ x 1 := by
    intro x
    match hls : splitOp2.lins with
    | [] => simp [hls] at hl
    | [c] =>
      simp only [hls, List.map_cons, List.map_nil, List.cons.injEq, Prod.mk.injEq, and_true] at hl
      simp [QP.Sat, QP.allCsts, hls, hq, Cst.sense, Cst.rhs, Cst.val, hl, LinExpr.val, Sense.rel, Dict.sum]
    | _ :: _ :: _ => simp [hls] at hl
  refine ⟨⟨fun i v hi => ?_, fun i v hi ht => ?_, (hsat _).mpr (by simp [pt])⟩, fun y hy => ?_⟩
  · rw [hv] at hi
    rcases i with _ | _ | i <;> simp at hi <;> subst hi <;> norm_num [pt]
  · rw [hv] at hi
    rcases i with _ | _ | i <;> simp at hi <;> subst hi <;> simp at ht
  · have := (hsat _).mp hy.2.2
    rw [h4, hval, hval]
    simp only [ObjSense.value, pt, List.getD_cons_zero, List.getD_cons_succ]
    nlinarith [mul_self_nonneg (y 0)]

/-- The hypotheses hold, the residual of the only iterate is zero, and the returned point is `b = 0`, `c = 1`. -/
example : admmSplitQP.WF ∧ (∀ v ∈ admmSplitQP.vars, v.vartype ≠ .integer) ∧
    (∀ t op w, exactSplit t op = .ok w → OptimalIn op.Feas op.objective (pt w)) ∧ (∀ v i, |pt v i| ≤ norm1 v) ∧
    (admmTwo 10).threeBlock = false ∧
    (admmSolve exactSplit exactSplit norm1 (fun _ => true) (admmTwo 10) admmSplitQP).toOption.map
      (fun a => (a.result.x, a.state.x0Saved, a.state.uSaved, a.state.residuals)) =
      some (some [0, 1], [[0]], [[1]], [0]) :=
  ⟨by decide +kernel, by decide +kernel, exactSplit_optimal, norm1_ge, rfl, by decide +kernel⟩

/-! ## The violation -/

/-- Minimize `100 b + c` for a binary variable `b` and a continuous variable `c` with `b + c >= 1`. -/
def admmEdgeQP : QP :=
  (runCalls (QP.empty "") [.addVar 0 1 .binary (some "b"), .addVar 0 10 .continuous (some "c"),
    .linear (.dict [(.idx 0, 1), (.idx 1, 1)]) (.sense .ge) 1 (some "r"),
    .objective .minimize 0 (.dict [(.idx 0, 100), (.idx 1, 1)]) (.dict [])]).2

theorem edge_vars : admmEdgeQP.vars = [⟨"b", 0, 1, .binary⟩, ⟨"c", 0, 10, .continuous⟩] := by decide +kernel

theorem edge_sat (x : Nat → ℚ) : admmEdgeQP.Sat x ↔ 1 ≤ x 0 + x 1 := by
  have h1 : admmEdgeQP.lins.map (fun c => (c.linear.coeffs, c.sense, c.rhs)) = [([(0, 1), (1, 1)], .ge, 1)] := by
    decide +kernel
  have h2 : admmEdgeQP.quads = [] := by decide +kernel
  match hl : admmEdgeQP.lins with
  | [] => simp [hl] at h1
  | [c] =>
    simp only [hl, List.map_cons, List.map_nil, List.cons.injEq, Prod.mk.injEq, and_true] at h1
    simp [QP.Sat, QP.allCsts, hl, h2, Cst.sense, Cst.rhs, Cst.val, h1, LinExpr.val, Sense.rel, Dict.sum]
  | _ :: _ :: _ => simp [hl] at h1

theorem edge_objective (x : Nat → ℚ) : admmEdgeQP.objective.val x = 100 * x 0 + x 1 := by
  have h1 : admmEdgeQP.objective.linear.coeffs = [(0, 100), (1, 1)] := by decide +kernel
  have h2 : admmEdgeQP.objective.quadratic.coeffs = [] := by decide +kernel
  have h3 : admmEdgeQP.objective.constant = 0 := by decide +kernel
  simp [Objective.val, LinExpr.val, QuadExpr.val, h1, h2, h3, Dict.sum]

theorem edge_binSum (f : Nat → Nat → ℚ) : admmEdgeQP.binSum f = f 0 0 := by
  have h1 : admmEdgeQP.numVars = 2 := by decide +kernel
  have h2 : admmEdgeQP.isBinary 0 = true := by decide +kernel
  have h3 : admmEdgeQP.rank .binary 0 = 0 := by decide +kernel
  have h4 : admmEdgeQP.isBinary 1 = false := by decide +kernel
  simp [QP.binSum, h1, h2, h3, h4, List.range_succ]

theorem edge_binEq (x : Nat → ℚ) : admmEdgeQP.binEqSquares x = 0 := by
  have h1 : admmEdgeQP.lins.filter (LinCst.isBinEq admmEdgeQP) = [] := by decide +kernel
  simp [QP.binEqSquares, h1]

/-- Step 1 sets the binary variable to zero. -/
theorem edge_step1 {rho lam0 z0 y0 : ℚ} {lam z y : List ℚ} {n : Nat} {op : QP} {w : List ℚ}
    (h : Step1Program (admmDefaults n) admmEdgeQP [0] rho lam z y op) (hw : OptimalIn op.Feas op.objective (pt w))
    (hl : pt lam 0 = lam0) (hz : pt z 0 = z0) (hy : pt y 0 = y0)
    (hpos : 0 < 100 + lam0 + rho / 2 * (1 - 2 * (z0 + y0))) : pt w 0 = 0 := by
  obtain ⟨hf, ho⟩ := hw
  have hv : op.vars[0]? = some ⟨"b", 0, 1, .binary⟩ := h.vars 0 0 ⟨"b", 0, 1, .binary⟩ rfl (by decide +kernel)
  have hv' : op.vars = [⟨"b", 0, 1, .binary⟩] := by
    have := h.count
    match hvs : op.vars with
    | [] => simp [hvs] at hv
    | [v] => simp [hvs] at hv; rw [hv]
    | _ :: _ :: _ => simp [QP.numVars, hvs] at this
  obtain ⟨K, hK⟩ := h.value
  have hval : ∀ x : Nat → ℚ, op.objective.val x + K =
      100 * x 0 + (lam0 * (x 0 - z0 - y0) + rho / 2 * (x 0 - z0 - y0) ^ 2) := by
    intro x
    have := hK x (fun i => if i = 0 then x 0 else 0)
      (fun k i hk => by
        cases k with
        | zero => simp at hk; subst hk; rfl
        | succ k => simp at hk)
      (fun i hi => by simp at hi; simp [hi])
    rw [this, edge_objective, edge_binEq, QP.coupling, edge_binSum, hl, hz, hy]
    simp
  have hb := hf.1 0 _ hv
  obtain ⟨c, hc⟩ := hf.2.1 0 _ hv (by simp)
  simp only [hc] at hb
  have b1 : 0 ≤ c := by exact_mod_cast hb.1
  have b2 : c ≤ 1 := by exact_mod_cast hb.2
  have hcase : c = 0 ∨ c = 1 := by omega
  rcases hcase with rfl | rfl
  · simpa using hc
  · exfalso
    have h0 := ho (fun _ => 0) ⟨fun i v hi => ?_, fun i v _ _ => ⟨0, by norm_num⟩, by
      simp [QP.Sat, QP.allCsts, h.lins, h.quads]⟩
    · rw [h.sense] at h0
      simp only [ObjSense.value, one_mul] at h0
      have e1 := hval (pt w)
      have e0 := hval (fun _ => 0)
      rw [hc] at e1
      simp only [Int.cast_one] at e1
      nlinarith
    · rw [hv'] at hi
      cases i with
      | zero => simp at hi; subst hi; norm_num
      | succ i => simp at hi

/-- The program of step 2. -/
theorem edge_step2 {r : AdmmRep} (hr : admmRep admmEdgeQP = .ok r) {s : AdmmState} {op : QP}
    (h : step2Problem r s = .ok op) :
    (∀ x, op.Feas x ↔ (0 ≤ x 0 ∧ x 0 ≤ 1) ∧ (0 ≤ x 1 ∧ x 1 ≤ 10) ∧ 1 ≤ x 0 + x 1) ∧ op.objective.sense = .minimize ∧
      ∀ x, op.objective.val x =
        x 1 + ((-pt s.lam 0 - s.rho * (pt s.x0 0 - pt s.y 0)) * x 0 + s.rho / 2 * (x 0 * x 0)) := by
  obtain ⟨f1, f2, f3, f4, _, f6, _⟩ := step2_facts (by decide +kernel) hr h
  refine ⟨fun x => ?_, f4.trans (by decide +kernel), fun x => ?_⟩
  · rw [step2_satRest (by decide +kernel) f1 f2 f3]
    have hall : (∀ c ∈ admmEdgeQP.allCsts, (∀ l, c = .lin l → l.isBinEq admmEdgeQP = false) →
        c.sense.rel (c.val x) c.rhs) ↔ 1 ≤ x 0 + x 1 := by
      rw [← edge_sat]
      have hl : ∀ l ∈ admmEdgeQP.lins, l.isBinEq admmEdgeQP = false := by decide +kernel
      refine ⟨fun h c hc => h c hc fun l e => ?_, fun h c hc _ => h c hc⟩
      subst e
      simp only [QP.allCsts, List.mem_append, List.mem_map] at hc
      rcases hc with ⟨l', h1, h2⟩ | ⟨l', h1, h2⟩
      · cases h2; exact hl _ h1
      · cases h2
    constructor
    · rintro ⟨⟨h1, h2⟩, h3⟩
      exact ⟨h3 0 ⟨"b", 0, 1, .binary⟩ (by rw [edge_vars]; rfl) rfl,
        h1 1 ⟨"c", 0, 10, .continuous⟩ (by rw [edge_vars]; rfl) rfl, hall.mp h2⟩
    · rintro ⟨h1, h2, h3⟩
      refine ⟨⟨fun i v hi ht => ?_, hall.mpr h3⟩, fun i v hi ht => ?_⟩ <;> rw [edge_vars] at hi <;>
        rcases i with _ | _ | i <;> simp at hi <;> subst hi <;> simp_all
  · have := f6 x
    rw [edge_objective, edge_binSum, edge_binSum] at this
    have e1 : Dict.get admmEdgeQP.objective.linear.coeffs 0 = 100 := by decide +kernel
    have e2 : Dict.get admmEdgeQP.objective.quadratic.coeffs (0, 0) = 0 := by decide +kernel
    rw [e1, e2] at this
    linarith

/-- Step 3 for `x0 = 0`. -/
theorem edge_step3 {rho lam0 z0 : ℚ} {lam x0 z : List ℚ} {n : Nat} {op : QP} {y : List ℚ}
    (h : Step3Program (admmDefaults n) admmEdgeQP rho lam x0 z op) (hw : OptimalIn op.Feas op.objective (pt y))
    (hl : pt lam 0 = lam0) (hx : pt x0 0 = 0) (hz : pt z 0 = z0) (hrho : 10000 ≤ rho) (h1 : -1000 ≤ lam0) (h2 : lam0 ≤ 0)
    (hz0 : 0 ≤ z0) (hz1 : z0 ≤ 1) : (1000 + rho) * pt y 0 = lam0 - rho * z0 := by
  have hc : admmEdgeQP.countType .binary = 1 := by decide +kernel
  have hb : (admmDefaults n).beta = 1000 := rfl
  have hr : 0 < 1000 + rho := by linarith
  have hrz : rho * z0 ≤ rho * 1 := mul_le_mul_of_nonneg_left hz1 (by linarith)
  have hrz0 : 0 ≤ rho * z0 := mul_nonneg (by linarith) hz0
  obtain ⟨m1, m2⟩ := C64_minimum (admmDefaults n) admmEdgeQP rho lam x0 z op h (by rw [hb]; exact hr)
    (fun j => if j = 0 then (lam0 - rho * z0) / (1000 + rho) else 0) (fun j hj => by
      obtain rfl : j = 0 := by omega
      rw [hl, hx, hz, hb]
      simp only [if_true]
      ring) (pt y)
  have hv : op.vars[0]? = some ⟨"b", -INFINITY, INFINITY, .continuous⟩ := by
    have := h.vars 0 ⟨"b", 0, 1, .binary⟩ (by decide +kernel) rfl
    rwa [show admmEdgeQP.rank .binary 0 = 0 by decide +kernel] at this
  have hv' : op.vars = [⟨"b", -INFINITY, INFINITY, .continuous⟩] := by
    have := h.count
    rw [hc] at this
    match hvs : op.vars with
    | [] => simp [hvs] at hv
    | [v] => simp [hvs] at hv; rw [hv]
    | _ :: _ :: _ => simp [QP.numVars, hvs] at this
  have h0 := hw.2 (fun j => if j = 0 then (lam0 - rho * z0) / (1000 + rho) else 0) ⟨fun i v hi => ?_, fun i v hi ht => ?_, by
    simp [QP.Sat, QP.allCsts, h.lins, h.quads]⟩
  · rw [h.sense] at h0
    simp only [ObjSense.value, one_mul] at h0
    have := m2 h0 0 (by rw [hc]; norm_num)
    simp only [if_true] at this
    rw [this]
    field_simp
  · rw [hv'] at hi
    cases i with
    | zero =>
      simp at hi; subst hi
      simp only [if_true, INFINITY]
      constructor
      · rw [le_div_iff₀ hr]; linarith
      · rw [div_le_iff₀ hr]; linarith
    | succ i => simp at hi
  · rw [hv'] at hi
    cases i with
    | zero => simp at hi; subst hi; simp at ht
    | succ i => simp at hi

/-- Every iterate. -/
theorem edge_iterates {qubo cont : Solver} {norm : List ℚ → ℚ} {n : Nat} {a : AdmmResult} {conv : I2B} {start : AdmmState}
    {hist : List Iterate} (hf : AdmmFacts qubo cont norm (admmDefaults n) admmEdgeQP a conv admmEdgeQP start hist)
    (hqubo : ∀ t op w, qubo t op = .ok w → OptimalIn op.Feas op.objective (pt w))
    (hcont : ∀ t op w, cont t op = .ok w → OptimalIn op.Feas op.objective (pt w)) (k : Nat) :
    ∀ g : Iterate, hist[k]? = some g → pt g.x0 0 = 0 ∧ 0 < pt g.z 0 ∧ pt g.z 0 ≤ 1 / 1000 ∧ pt g.u 0 = 1 - pt g.z 0 ∧
      -1 / 1000 ≤ pt g.y 0 ∧ pt g.y 0 ≤ 0 ∧
      10000 ≤ g.rho ∧ pt g.lam 0 + g.rho * (pt g.x0 0 - pt g.z 0 - pt g.y 0) = 1000 * pt g.y 0 := by
  have hsel : a.rep.step1Abs = [0] := by
    have : (admmRep admmEdgeQP).toOption.map AdmmRep.step1Abs = some [0] := by decide +kernel
    rw [hf.rep] at this
    simpa [Except.toOption] using this
  have hc : admmEdgeQP.countType .binary = 1 := by decide +kernel
  have hvar : admmEdgeQP.vars[0]? = some ⟨"b", 0, 1, .binary⟩ := by decide +kernel
  have hvar1 : admmEdgeQP.vars[1]? = some ⟨"c", 0, 10, .continuous⟩ := by decide +kernel
  have hrank : admmEdgeQP.rank .binary 0 = 0 := by decide +kernel
  have hrank1 : admmEdgeQP.rank .continuous 1 = 0 := by decide +kernel
  -- one iteration
  have hstep : ∀ (k : Nat) (g : Iterate) (s : AdmmState), s.rho = g.rho → s.lam = g.lam →
      updateX0 qubo k (admmDefaults n) a.rep s = .ok g.x0 →
      updateX1 cont (2 * k + 1) a.rep { s with x0 := g.x0 } = .ok (g.u, g.z) →
      updateY cont (2 * k + 2) (admmDefaults n) a.rep { s with x0 := g.x0, u := g.u, z := g.z } = .ok g.y →
      10000 ≤ g.rho → pt g.lam 0 = 1000 * pt s.y 0 →
      pt s.z 0 ≤ 1 / 1000 → -1 / 1000 ≤ pt s.y 0 → pt s.y 0 ≤ 0 →
      pt g.x0 0 = 0 ∧ 0 < pt g.z 0 ∧ pt g.z 0 ≤ 1 / 1000 ∧ pt g.u 0 = 1 - pt g.z 0 ∧
      -1 / 1000 ≤ pt g.y 0 ∧ pt g.y 0 ≤ 0 ∧
      10000 ≤ g.rho ∧ pt g.lam 0 + g.rho * (pt g.x0 0 - pt g.z 0 - pt g.y 0) = 1000 * pt g.y 0 := by
    intro k g s s2 s3 s4 s5 s6 hrho hlam hz1 hy0 hy1
    have hrpos : 0 < g.rho := by linarith
    have hx0 : pt g.x0 0 = 0 := by
      rcases updateX0_inv hf.wf hf.rep s4 with ⟨e, _⟩ | ⟨_, op, w, w1, w2, w3, w4, w5, _⟩
      · rw [hsel] at e; simp at e
      · have := step1Program_of hf.wf hf.rep w1
        rw [hsel, s2, s3] at this
        have h0 := edge_step1 this (hqubo _ _ _ w2) rfl rfl rfl (by
          rw [hlam]
          nlinarith)
        have h1 := w5 0 0 (by rw [hsel]; rfl)
        rw [hrank] at h1
        rw [h1, h0]
    -- the answer of step 2
    have hzu : g.rho * pt g.z 0 = 1 + (1000 - g.rho) * pt s.y 0 ∧ pt g.u 0 = 1 - pt g.z 0 := by
      obtain ⟨op, v, v1, v2, v3, v4, v5⟩ := updateX1_inv hf.rep s5
      obtain ⟨e1, e2, e3⟩ := edge_step2 hf.rep v1
      simp only [s2, s3, hx0, hlam] at e3
      obtain ⟨o1, o2⟩ := hcont _ _ _ v2
      obtain ⟨⟨p1, p2⟩, ⟨p3, p4⟩, p5⟩ := (e1 _).mp o1
      have ez := takeIdx_pt v5 hvar rfl
      have eu := takeIdx_pt v4 hvar1 rfl
      rw [hrank] at ez
      rw [hrank1] at eu
      rw [ez] at p1 p2 p5
      rw [eu] at p3 p4 p5
      have hm : 0 ≤ (1000 - g.rho) * pt s.y 0 :=
        mul_nonneg_of_nonpos_of_nonpos (by linarith) hy1
      have hm1 : (1000 - g.rho) * pt s.y 0 ≤ g.rho / 1000 - 1 := by nlinarith
      generalize hmm : (1000 - g.rho) * pt s.y 0 = m at *
      have ht : ∃ t, g.rho * t = 1 + m := ⟨(1 + m) / g.rho, by field_simp⟩
      obtain ⟨t, ht⟩ := ht
      have ht0 : 0 < t := by
        by_contra hn
        push Not at hn
        nlinarith
      have ht1 : t ≤ 1 / 1000 := by
        by_contra hn
        push Not at hn
        nlinarith
      have := o2 (pt [t, 1 - t]) ((e1 _).mpr (by simp [pt]; refine ⟨⟨?_, ?_⟩, ?_, ?_⟩ <;> linarith))
      rw [e2, e3, e3, ez, eu] at this
      simp only [ObjSense.value, one_mul, pt, List.getD_cons_zero, List.getD_cons_succ] at this
      simp only [← pt.eq_def] at this
      have hco : -(1000 * pt s.y 0) - g.rho * (0 - pt s.y 0) = -m := by rw [← hmm]; ring
      rw [hco] at this
      have hsq : g.rho / 2 * (pt g.z 0 - t) ^ 2 + (pt g.u 0 - (1 - pt g.z 0)) ≤ 0 := by
        have : m = g.rho * t - 1 := by linarith
        subst this
        nlinarith
      have h1 : 0 ≤ g.rho / 2 * (pt g.z 0 - t) ^ 2 := mul_nonneg (by linarith) (sq_nonneg _)
      have h2 : g.rho / 2 * (pt g.z 0 - t) ^ 2 = 0 := by linarith
      have h3 : pt g.z 0 = t := by
        rcases mul_eq_zero.mp h2 with h | h
        · linarith
        · exact sub_eq_zero.mp (pow_eq_zero_iff (by norm_num) |>.mp h)
      exact ⟨by rw [h3, ht], by linarith⟩
    obtain ⟨hz, hu⟩ := hzu
    have hz0 : 0 < pt g.z 0 := by
      by_contra hn
      push Not at hn
      nlinarith
    have hz2 : pt g.z 0 ≤ 1 / 1000 := by
      by_contra hn
      push Not at hn
      nlinarith
    have hy : (1000 + g.rho) * pt g.y 0 = 1000 * pt s.y 0 - g.rho * pt g.z 0 := by
      rcases updateY_inv hf.rep s6 with ⟨_, _, op, o1, _, o3⟩ | ⟨c1, _⟩
      · simp only [s2, s3] at o3
        exact edge_step3 o3 (hcont _ _ _ o1) hlam hx0 rfl hrho (by linarith) (by linarith) hz0.le (by linarith)
      · rw [hc] at c1
        exact absurd c1 (by simp [admmDefaults])
    refine ⟨hx0, hz0, hz2, hu, ?_, ?_, hrho, ?_⟩
    · by_contra hn
      push Not at hn
      nlinarith
    · by_contra hn
      push Not at hn
      nlinarith
    · rw [hx0, hlam]; linarith
  induction k with
  | zero =>
    intro g hg
    obtain ⟨s, s1, s2, s3, s4, s5, s6⟩ := iteration_facts hf hg
    obtain ⟨r1, r2⟩ := hf.trace.first g hg
    obtain ⟨z1, z2⟩ := s1.1 rfl
    refine hstep 0 g s s2 s3 s4 s5 s6 (by rw [r1]; exact le_refl _) ?_ (by rw [z2 rfl 0]; norm_num)
      (by rw [z1 0]; norm_num) (by rw [z1 0])
    rw [r2, hc, z1]; simp [pt]
  | succ k ih =>
    intro g hg
    obtain ⟨s, s1, s2, s3, s4, s5, s6⟩ := iteration_facts hf hg
    have hk : k < hist.length := by
      have := (List.getElem?_eq_some_iff.mp hg).1; omega
    have hk' : hist[k]? = some hist[k] := List.getElem?_eq_getElem hk
    obtain ⟨i1, i2, i3, i4, i5, i6, i7, i8⟩ := ih _ hk'
    obtain ⟨e1, e2⟩ := s1.2 k _ rfl hk'
    obtain ⟨_, _, _, _, n1, n2⟩ := hf.trace.next k _ _ hk' hg
    refine hstep (k + 1) g s s2 s3 s4 s5 s6 ?_ ?_ (by rw [e1]; exact i3) (by rw [e2]; exact i5) (by rw [e2]; exact i6)
    · rw [n1, updateRho, if_pos (by rfl)]
      split <;> linarith
    · rw [n2, e2, Iterate.nextLam, pt_map_range, if_pos (by rw [hc]; norm_num), i8]

/-- The program of step 2 in the first iteration. -/
def edgeOp2 : QP :=
  match admmRep admmEdgeQP with
  | .error _ => QP.empty ""
  | .ok r => match step2Problem r (admmInit (admmDefaults 1) admmEdgeQP) with
    | .error _ => QP.empty ""
    | .ok op => op

/-- An exact solver for the programs of the first iteration. -/
def exactEdge : Solver := fun t op => if op = edgeOp2 then .ok [1 / 10000, 9999 / 10000] else exactOne t op

theorem exactEdge_optimal (t : Nat) (op : QP) (w : List ℚ) (h : exactEdge t op = .ok w) :
    OptimalIn op.Feas op.objective (pt w) := by
  unfold exactEdge at h
  split at h
  swap
  · exact exactOne_optimal t op w h
  rename_i ho
  simp only [Except.ok.injEq] at h
  subst h
  have hr : (admmRep admmEdgeQP).toOption.isSome = true := by decide +kernel
  have hs : (admmRep admmEdgeQP).toOption.all (fun r =>
      (step2Problem r (admmInit (admmDefaults 1) admmEdgeQP)).toOption = some edgeOp2) = true := by decide +kernel
  cases hrep : admmRep admmEdgeQP with
  | error e => simp [hrep, Except.toOption] at hr
  | ok r =>
    simp only [hrep, Except.toOption, Option.all_some, decide_eq_true_eq] at hs
    cases h2 : step2Problem r (admmInit (admmDefaults 1) admmEdgeQP) with
    | error e => simp [h2] at hs
    | ok op' =>
      simp only [h2, Option.some.injEq, decide_eq_true_eq] at hs
      subst ho
      rw [← hs]
      obtain ⟨e1, e2, e3⟩ := edge_step2 hrep h2
      refine ⟨(e1 _).mpr (by simp [pt]; norm_num), fun y hy => ?_⟩
      obtain ⟨_, _, h5⟩ := (e1 _).mp hy
      have i1 : pt (admmInit (admmDefaults 1) admmEdgeQP).lam 0 = 0 := by decide +kernel
      have i2 : pt (admmInit (admmDefaults 1) admmEdgeQP).x0 0 = 0 := by decide +kernel
      have i3 : pt (admmInit (admmDefaults 1) admmEdgeQP).y 0 = 0 := by decide +kernel
      have i4 : (admmInit (admmDefaults 1) admmEdgeQP).rho = 10000 := by decide +kernel
      rw [e2, e3, e3, i1, i2, i3, i4]
      simp only [ObjSense.value, pt, List.getD_cons_zero, List.getD_cons_succ]
      nlinarith [sq_nonneg (y 0 - 1 / 10000)]

/-- **C113 fails** with the third block: minimize `100 b + c` for `b + c >= 1`.  With the default parameters, any exact
solvers of the blocks, any norm and any number of iterations, the answer has `b = 0` and `c < 1`, which violates the
constraint, although `b = 0`, `c = 1` is the best feasible point; and such runs exist. -/
theorem C113_violated : ∃ p : QP, p.WF ∧ p.ShapeOK ∧ OptimalIn p.Feas p.objective (pt [0, 1]) ∧
    (∀ (qubo cont : Solver) (norm : List ℚ → ℚ) (clock : Nat → Bool) (n : Nat) (a : AdmmResult),
      (∀ t op w, qubo t op = .ok w → OptimalIn op.Feas op.objective (pt w)) →
      (∀ t op w, cont t op = .ok w → OptimalIn op.Feas op.objective (pt w)) →
      admmSolve qubo cont norm clock (admmDefaults n) p = .ok a →
      ∃ c, a.result.x = some [0, c] ∧ c < 1 ∧ ¬ p.SatRest (pt [0, c]) ∧ a.result.status = .infeasible) ∧
    ∃ (qubo cont : Solver) (a : AdmmResult),
      (∀ t op w, qubo t op = .ok w → OptimalIn op.Feas op.objective (pt w)) ∧
      (∀ t op w, cont t op = .ok w → OptimalIn op.Feas op.objective (pt w)) ∧
      admmSolve qubo cont norm1 (fun _ => true) (admmDefaults 1) p = .ok a := by
  refine ⟨admmEdgeQP, by decide +kernel, by decide +kernel, ?_, ?_, ?_⟩
  · refine ⟨⟨fun i v hi => ?_, fun i v hi _ => ?_, (edge_sat _).mpr (by simp [pt])⟩, fun y hy => ?_⟩
    · rw [edge_vars] at hi
      rcases i with _ | _ | i <;> simp at hi <;> subst hi <;> norm_num [pt]
    · rw [edge_vars] at hi
      rcases i with _ | _ | i <;> simp at hi <;> subst hi
      · exact ⟨0, by simp [pt]⟩
      · exact ⟨1, by simp [pt]⟩
    · have h1 := (edge_sat _).mp hy.2.2
      have h2 := hy.1 0 ⟨"b", 0, 1, .binary⟩ (by rw [edge_vars]; rfl)
      rw [edge_objective, edge_objective, show admmEdgeQP.objective.sense = .minimize by decide +kernel]
      simp only [ObjSense.value, pt, List.getD_cons_zero, List.getD_cons_succ]
      linarith [h2.1]
  · intro qubo cont norm clock n a hqubo hcont h
    obtain ⟨conv, q, start, hist, hf⟩ := admmSolve_facts (by decide +kernel) h
    obtain ⟨rfl, y, y1, y2, y3, _⟩ := hf.plain (by decide +kernel) (by decide +kernel)
    have h2 := hf.turn
    rw [show turnToMinimization admmEdgeQP = .ok admmEdgeQP by
      simp [turnToMinimization, show admmEdgeQP.objective.sense = .minimize by decide +kernel], Except.ok.injEq] at h2
    subst h2
    obtain ⟨k, it, k1, k2, _⟩ := hf.best
    obtain ⟨j1, j2, j3, j4, _⟩ := edge_iterates hf hqubo hcont k it k1
    have hn : admmEdgeQP.numVars = 2 := by decide +kernel
    rw [hn] at y2 y3
    have e0 := (k2.2 0 ⟨"b", 0, 1, .binary⟩ (by rw [edge_vars]; rfl)).1 rfl
    have e1 := (k2.2 1 ⟨"c", 0, 10, .continuous⟩ (by rw [edge_vars]; rfl)).2 rfl
    rw [show admmEdgeQP.rank .binary 0 = 0 by decide +kernel, j1, ← y3 0 (by norm_num)] at e0
    rw [show admmEdgeQP.rank .continuous 1 = 0 by decide +kernel, j4, ← y3 1 (by norm_num)] at e1
    have hy : y = [0, 1 - pt it.z 0] := by
      match y, y2 with
      | [b, c], _ =>
        simp only [pt, List.getD_cons_zero, List.getD_cons_succ] at e0 e1
        simp only [← pt.eq_def] at e1
        rw [e0, e1]
    have hlt : 1 - pt it.z 0 < 1 := by linarith
    have hns : ¬ admmEdgeQP.Sat (pt y) := by
      rw [edge_sat, e0, e1]; linarith
    refine ⟨_, by rw [y1, hy], hlt, fun hs => hns ?_, ?_⟩
    · rw [← hy] at hs
      have hl : ∀ l ∈ admmEdgeQP.lins, l.isBinEq admmEdgeQP = false := by decide +kernel
      refine fun c hc => hs.csts c hc fun l e => ?_
      subst e
      simp only [QP.allCsts, List.mem_append, List.mem_map] at hc
      rcases hc with ⟨l', h1, h2⟩ | ⟨l', h1, h2⟩
      · cases h2; exact hl _ h1
      · cases h2
    · obtain ⟨y', _, c2, _, _, _, c5, c6, _⟩ := C29_result admmEdgeQP (by decide +kernel) _ _ _ _ _ hf.interp
      rw [y1, Option.some.injEq] at c2
      subst c2
      refine c5.resolve_left fun h => hns ?_
      have hg : ∀ c ∈ admmEdgeQP.allCsts, c.sense = .ge := by decide +kernel
      intro c hc
      have := (c6.mp h).2 c hc
      rw [hg c hc] at this ⊢
      exact this
  · have h : (admmSolve exactEdge exactEdge norm1 (fun _ => true) (admmDefaults 1) admmEdgeQP).toOption.isSome = true := by
      decide +kernel
    cases ha : admmSolve exactEdge exactEdge norm1 (fun _ => true) (admmDefaults 1) admmEdgeQP with
    | error e => simp [ha, Except.toOption] at h
    | ok a => exact ⟨exactEdge, exactEdge, a, exactEdge_optimal, exactEdge_optimal, ha⟩

end Verif
