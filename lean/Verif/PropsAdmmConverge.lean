import Verif.PropsAdmmSteps

/-!
# The primal residual of the ADMM optimizer and the constraints (C85)
-/

namespace Verif

/-! ## Lemmas -/

/-- The violation at `x` of a constraint that holds at `v`. -/
theorem Cst.violation_le {c : Cst} {x v : Nat → ℚ} (h : c.sense.rel (c.val v) c.rhs) :
    c.violation x ≤ |c.val x - c.val v| := by
  unfold Cst.violation Sense.rel at *
  cases hs : c.sense <;> rw [hs] at h <;> simp only at h ⊢
  · exact max_le (by have := le_abs_self (c.val x - c.val v); linarith) (abs_nonneg _)
  · exact max_le (by have := neg_abs_le (c.val x - c.val v); linarith) (abs_nonneg _)
  · rw [h]

theorem binary_distance {norm : List ℚ → ℚ} (hnorm : ∀ v i, |pt v i| ≤ norm v) {a b c : List ℚ} (h1 : a.length = b.length)
    (h2 : a.length = c.length) (i : Nat) : |pt a i - pt b i| ≤ norm (vsub (vsub a b) c) + |pt c i| := by
  have h := hnorm (vsub (vsub a b) c) i
  rw [pt_vsub (by rw [vsub_length h1, h2]), pt_vsub h1] at h
  have := abs_add_le (pt a i - pt b i - pt c i) (pt c i)
  rw [sub_add_cancel] at this
  linarith

theorem y_zero {qubo cont : Solver} {norm : List ℚ → ℚ} {prm : AdmmParams} {p : QP} {a : AdmmResult}
    {conv : I2B} {q : QP} {start : AdmmState} {hist : List Iterate}
    (hf : AdmmFacts qubo cont norm prm p a conv q start hist) (h2 : prm.threeBlock = false) (k : Nat) :
    ∀ g : Iterate, hist[k]? = some g → ∀ i, pt g.y i = 0 := by
  induction k with
  | zero =>
    intro g hg
    obtain ⟨s, s1, _, _, _, _, s6⟩ := iteration_facts hf hg
    rcases updateY_inv hf.rep s6 with ⟨c1, _⟩ | ⟨_, c2⟩
    · simp [h2] at c1
    · rw [c2]; exact (s1.1 rfl).1
  | succ k ih =>
    intro g hg
    obtain ⟨s, s1, _, _, _, _, s6⟩ := iteration_facts hf hg
    rcases updateY_inv hf.rep s6 with ⟨c1, _⟩ | ⟨_, c2⟩
    · simp [h2] at c1
    · have hk : k < hist.length := by
        have := (List.getElem?_eq_some_iff.mp hg).1; omega
      have hk' : hist[k]? = some hist[k] := List.getElem?_eq_getElem hk
      rw [c2, show ({ s with x0 := g.x0, u := g.u, z := g.z } : AdmmState).y = s.y from rfl, (s1.2 k _ rfl hk').2]
      exact ih _ hk'

/-! ## C85 -/

/-- **C85**: when the answers of the solver of step 2 satisfy the constraints and bounds it was given, every iterate
violates a linear constraint, other than an equality of binary variables, by at most the sum of the absolute
coefficients of the binary variables, each times the primal residual plus the value of `y`.  Without the third block `y`
is zero: then the violation is at most the residual times this sum, and with residual zero the iterate satisfies all
constraints, also quadratic ones, other than the equalities of binary variables.  Missing (false by `C85_violated`): a
bound in terms of the residual alone with the third block, which is the default. -/
theorem C85_residual_partial (qubo cont : Solver) (norm : List ℚ → ℚ) (clock : Nat → Bool) (prm : AdmmParams) (p : QP)
    (hp : p.WF) (a : AdmmResult) (h : admmSolve qubo cont norm clock prm p = .ok a)
    (hcont : ∀ t op v, cont t op = .ok v → v.length = op.numVars → op.Feas (pt v))
    (hnorm : ∀ v i, |pt v i| ≤ norm v) :
    ∃ conv q, p.intToBin = .ok conv ∧ turnToMinimization conv.dst = .ok q ∧ ∃ hist : List Iterate,
      a.state.x0Saved = hist.map Iterate.x0 ∧ a.state.uSaved = hist.map Iterate.u ∧
      a.state.zSaved = hist.flatMap (fun h => [h.z, h.y]) ∧ ∀ (k : Nat) (g : Iterate), hist[k]? = some g → ∃ r x,
        a.state.residuals[k]? = some r ∧ Assembles q g.x0 g.u x ∧ a.state.consR[k]? = some (q.violation (pt x)) ∧
        (∀ i v, q.vars[i]? = some v → v.vartype = .continuous → v.lb ≤ pt x i ∧ pt x i ≤ v.ub) ∧
        (∀ c ∈ q.lins, c.isBinEq q = false →
          (Cst.lin c).violation (pt x) ≤ q.binSum fun i j => |Dict.get c.linear.coeffs i| * (r + |pt g.y j|)) ∧
        (prm.threeBlock = false → (∀ c ∈ q.lins, c.isBinEq q = false →
            (Cst.lin c).violation (pt x) ≤ r * q.binSum fun i _ => |Dict.get c.linear.coeffs i|) ∧
          (r = 0 → ∀ c ∈ q.allCsts, (∀ l, c = .lin l → l.isBinEq q = false) → c.sense.rel (c.val (pt x)) c.rhs)) := by
  obtain ⟨conv, q, start, hist, hf⟩ := admmSolve_facts hp h
  refine ⟨conv, q, hf.hconv, hf.turn, hist, hf.trace.x0s, hf.trace.us, hf.trace.zs, fun k g hk => ?_⟩
  have hi := hf.trace.steps k g hk
  obtain ⟨x, x1, _, x3, _⟩ := hi.point
  obtain ⟨s, _, _, _, _, s5, _⟩ := iteration_facts hf hk
  obtain ⟨op, v, v1, v2, v3, v4, v5⟩ := updateX1_inv hf.rep s5
  obtain ⟨f1, f2, f3, _⟩ := step2_facts hf.wf hf.rep v1
  obtain ⟨fb, _, fs⟩ := hcont _ _ _ v2 v3
  have hsat : ∀ c ∈ q.allCsts, (∀ l, c = .lin l → l.isBinEq q = false) → c.sense.rel (c.val (pt v)) c.rhs := by
    intro c hc hl
    refine fs c ?_
    unfold QP.allCsts at hc ⊢
    rw [f2, f3]
    rcases List.mem_append.mp hc with hc | hc
    · obtain ⟨l, l1, rfl⟩ := List.mem_map.mp hc
      exact List.mem_append_left _ (List.mem_map.mpr ⟨l, List.mem_filter.mpr ⟨l1, by rw [hl l rfl]; rfl⟩, rfl⟩)
    · exact List.mem_append_right _ hc
  have hcontv : ∀ i w, q.vars[i]? = some w → w.vartype = .continuous → pt x i = pt v i := by
    intro i w hi hw
    rw [(x1.2 i w hi).2 hw, takeIdx_pt v4 hi hw]
  have hbinv : ∀ i w, q.vars[i]? = some w → w.vartype = .binary →
      |pt x i - pt v i| ≤ norm (vsub (vsub g.x0 g.z) g.y) + |pt g.y (q.rank .binary i)| := by
    intro i w hw hb
    rw [(x1.2 i w hw).1 hb, takeIdx_pt v5 hw hb]
    exact binary_distance hnorm (hi.lx.trans hi.lz.symm) (hi.lx.trans hi.ly.symm) _
  have hlin : ∀ c ∈ q.lins, c.isBinEq q = false → (Cst.lin c).violation (pt x) ≤
      q.binSum fun i j => |Dict.get c.linear.coeffs i| * (norm (vsub (vsub g.x0 g.z) g.y) + |pt g.y j|) := by
    intro c hc hb
    refine (Cst.violation_le (hsat (.lin c) (List.mem_append_left _ (List.mem_map.mpr ⟨c, hc, rfl⟩))
      (fun l hl => by cases hl; exact hb))).trans ?_
    have hfit := hf.wf.lins c hc
    simp only [Cst.val]
    rw [LinExpr.val_range hfit, LinExpr.val_range hfit, ← Finset.sum_sub_distrib, QP.binSum, lsum_range]
    refine (Finset.abs_sum_le_sum_abs _ _).trans (Finset.sum_le_sum fun i hi => ?_)
    rw [← mul_sub, abs_mul]
    obtain ⟨w, hw⟩ := lt_numVars (p := q) (i := i) (Finset.mem_range.mp hi)
    cases ht : w.vartype with
    | binary =>
      have : q.isBinary i = true := by simp [QP.isBinary, hw, ht]
      rw [if_pos this]
      exact mul_le_mul_of_nonneg_left (hbinv i w hw ht) (abs_nonneg _)
    | continuous =>
      have : ¬ q.isBinary i = true := by simp [QP.isBinary, hw, ht]
      rw [if_neg this, hcontv i w hw ht, sub_self, abs_zero, mul_zero]
    | integer => exact absurd ht (hf.noInt w (List.mem_of_getElem? hw))
  refine ⟨_, x, hi.primal, x1, x3, ?_, hlin, fun h2 => ⟨fun c hc hb => ?_, fun hr c hc hl => ?_⟩⟩
  · intro i w hw ht
    have := fb i w (by rw [f1, List.getElem?_map, hw, Option.map_some, if_neg (by rw [ht]; simp)])
    rw [hcontv i w hw ht]
    exact this
  · have h0 := y_zero hf h2 k g hk
    have := hlin c hc hb
    simp only [QP.binSum, h0, abs_zero, add_zero] at this ⊢
    rw [← List.sum_map_mul_left]
    refine this.trans (le_of_eq ?_)
    congr 1
    refine List.map_congr_left fun i _ => ?_
    split
    · ring
    · ring
  · have h0 := y_zero hf h2 k g hk
    have hx : x = v := by
      apply List.ext_getElem (by rw [x1.1, v3, QP.numVars, QP.numVars, f1, List.length_map])
      intro i h1 h2
      obtain ⟨w, hw⟩ := lt_numVars (p := q) (i := i) (x1.1 ▸ h1)
      have e : pt x i = pt v i := by
        cases ht : w.vartype with
        | binary =>
          have := hbinv i w hw ht
          rw [hr, h0, abs_zero, add_zero] at this
          exact sub_eq_zero.mp (abs_nonpos_iff.mp this)
        | continuous => exact hcontv i w hw ht
        | integer => exact absurd ht (hf.noInt w (List.mem_of_getElem? hw))
      simpa [pt, List.getD_eq_getElem?_getD, List.getElem?_eq_getElem h1, List.getElem?_eq_getElem h2] using e
    rw [hx]
    exact hsat c hc hl

/-! ## A program on which the third block hides the violation -/

/-- Minimize `b` for a binary variable with `b >= 1`. -/
def admmHideQP : QP :=
  (runCalls (QP.empty "") [.addVar 0 1 .binary (some "b"), .linear (.dict [(.idx 0, 1)]) (.sense .ge) 1 (some "c"),
    .objective .minimize 0 (.dict [(.idx 0, 1)]) (.dict [])]).2

/-- A minimization program with a single variable, without quadratic constraints. -/
def onlyVar (op : QP) : Bool :=
  decide (op.numVars = 1 ∧ op.objective.sense = .minimize ∧ op.quads = [] ∧
    (Assoc.keys op.objective.linear.coeffs).Nodup ∧ (∀ k ∈ Assoc.keys op.objective.linear.coeffs, k = 0) ∧
    (Assoc.keys op.objective.quadratic.coeffs).Nodup ∧ ∀ k ∈ Assoc.keys op.objective.quadratic.coeffs, k = (0, 0))

/-- An exact solver for programs with a single variable: a binary variable without constraints, or a continuous variable
with a convex objective and at most one lower bound as a constraint. -/
def exactOne : Solver := fun _ op =>
  if onlyVar op then
    let a := Dict.get op.objective.quadratic.coeffs (0, 0)
    let b := Dict.get op.objective.linear.coeffs 0
    match op.vars, op.lins with
    | [v], [] =>
      if v.vartype = .binary ∧ v.lb = 0 ∧ v.ub = 1 then .ok [if a + b < 0 then 1 else 0]
      else if v.vartype = .continuous ∧ 0 < a ∧ v.lb ≤ v.ub then .ok [max v.lb (min v.ub (-b / (2 * a)))]
      else .error .indexError
    | [v], [c] =>
      if v.vartype = .continuous ∧ 0 < a ∧ c.linear.coeffs = [(0, 1)] ∧ c.sense = .ge ∧ max v.lb c.rhs ≤ v.ub then
        .ok [max (max v.lb c.rhs) (min v.ub (-b / (2 * a)))]
      else .error .indexError
    | _, _ => .error .indexError
  else .error .indexError

theorem sum_single {κ : Type} [DecidableEq κ] {d : Dict κ} {k0 : κ} (hn : (Assoc.keys d).Nodup)
    (hk : ∀ k ∈ Assoc.keys d, k = k0) (f : κ → ℚ) : Dict.sum d f = Dict.get d k0 * f k0 := by
  cases d with
  | nil => simp [Dict.sum, Dict.get, Assoc.get?]
  | cons a d =>
    cases d with
    | nil =>
      have : a.1 = k0 := hk a.1 (by simp [Assoc.keys])
      subst this
      simp [Dict.sum, Dict.get, Assoc.get?]
    | cons b d =>
      have h1 : a.1 = k0 := hk a.1 (by simp [Assoc.keys])
      have h2 : b.1 = k0 := hk b.1 (by simp [Assoc.keys])
      simp [Assoc.keys, h1, h2] at hn

theorem onlyVar_val {op : QP} (h : onlyVar op = true) (x : Nat → ℚ) :
    op.objective.val x = op.objective.constant + Dict.get op.objective.linear.coeffs 0 * x 0 +
      Dict.get op.objective.quadratic.coeffs (0, 0) * (x 0 * x 0) := by
  simp only [onlyVar, decide_eq_true_eq] at h
  obtain ⟨_, _, _, h1, h2, h3, h4⟩ := h
  simp only [Objective.val, LinExpr.val, QuadExpr.val]
  rw [sum_single h1 h2, sum_single h3 h4]

/-- The least value of a convex parabola on an interval. -/
theorem parabola_min {a b lo hi : ℚ} (ha : 0 < a) (hl : lo ≤ hi) (y : ℚ) (h1 : lo ≤ y) (h2 : y ≤ hi) :
    b * max lo (min hi (-b / (2 * a))) + a * (max lo (min hi (-b / (2 * a))) * max lo (min hi (-b / (2 * a)))) ≤
      b * y + a * (y * y) := by
  have hm : 2 * a * (-b / (2 * a)) = -b := by field_simp
  generalize -b / (2 * a) = m at *
  obtain rfl : b = -(2 * a * m) := by linarith
  rcases le_total hi m with hc | hc
  · rw [min_eq_left hc, max_eq_right hl]
    nlinarith [mul_nonneg ha.le (mul_nonneg (sub_nonneg.mpr h2) (by linarith : 0 ≤ (m - y) + (m - hi)))]
  · rw [min_eq_right hc]
    rcases le_total lo m with hd | hd
    · rw [max_eq_right hd]
      nlinarith [mul_nonneg ha.le (sq_nonneg (y - m))]
    · rw [max_eq_left hd]
      nlinarith [mul_nonneg ha.le (mul_nonneg (sub_nonneg.mpr h1) (by linarith : 0 ≤ (y - m) + (lo - m)))]

/-- The solver of the examples is exact. -/
theorem exactOne_optimal (t : Nat) (op : QP) (w : List ℚ) (h : exactOne t op = .ok w) :
    OptimalIn op.Feas op.objective (pt w) := by
  unfold exactOne at h
  split at h
  swap
  · simp at h
  rename_i ho
  have hval := onlyVar_val ho
  have hs : op.objective.sense = .minimize ∧ op.quads = [] := by
    simp only [onlyVar, decide_eq_true_eq] at ho
    exact ⟨ho.2.1, ho.2.2.1⟩
  simp only at h
  split at h
  · rename_i v hv hl
    have hsat : ∀ x, op.Sat x := by intro x; simp [QP.Sat, QP.allCsts, hl, hs.2]
    have hone : ∀ (P : Nat → Variable → Prop), (∀ i w, op.vars[i]? = some w → P i w) ↔ P 0 v := by
      intro P
      rw [hv]
      constructor
      · intro h; exact h 0 v rfl
      · intro h i w hi
        cases i with
        | zero => simp at hi; exact hi ▸ h
        | succ i => simp at hi
    split at h
    · rename_i hc
      simp only [Except.ok.injEq] at h
      subst h
      refine ⟨⟨(hone _).mpr ?_, (hone _).mpr ?_, hsat _⟩, fun y hy => ?_⟩
      · rw [hc.2.1, hc.2.2]; simp only [pt]; split <;> norm_num
      · intro _
        simp only [pt]
        split
        · exact ⟨1, by norm_num⟩
        · exact ⟨0, by norm_num⟩
      · have b := (hone _).mp hy.1
        obtain ⟨z, hz⟩ := (hone _).mp hy.2.1 (by rw [hc.1]; simp)
        rw [hc.2.1, hc.2.2, hz] at b
        have b1 : 0 ≤ z := by exact_mod_cast b.1
        have b2 : z ≤ 1 := by exact_mod_cast b.2
        rw [hs.1, hval, hval, hz]
        simp only [ObjSense.value, pt, one_mul]
        have : z = 0 ∨ z = 1 := by omega
        split <;> rcases this with rfl | rfl <;> simp <;> linarith
    · split at h
      · rename_i _ hc
        simp only [Except.ok.injEq] at h
        subst h
        refine ⟨⟨(hone _).mpr ?_, (hone _).mpr ?_, hsat _⟩, fun y hy => ?_⟩
        · exact ⟨le_max_left _ _, max_le hc.2.2 (min_le_left _ _)⟩
        · intro h'; rw [hc.1] at h'; simp at h'
        · have b := (hone _).mp hy.1
          rw [hs.1, hval, hval]
          have := parabola_min (b := Dict.get op.objective.linear.coeffs 0) hc.2.1 hc.2.2 (y 0) b.1 b.2
          simp only [ObjSense.value, pt, one_mul, List.getD_cons_zero]
          linarith
      · simp at h
  · rename_i v c hv hl
    have hone : ∀ (P : Nat → Variable → Prop), (∀ i w, op.vars[i]? = some w → P i w) ↔ P 0 v := by
      intro P
      rw [hv]
      constructor
      · intro h; exact h 0 v rfl
      · intro h i w hi
        cases i with
        | zero => simp at hi; exact hi ▸ h
        | succ i => simp at hi
    split at h
    · rename_i hc
      have hsat : ∀ x, op.Sat x ↔ c.rhs ≤ x 0 := by
        intro x
        simp [QP.Sat, QP.allCsts, hl, hs.2, Cst.val, Cst.sense, Cst.rhs, hc.2.2.2.1, Sense.rel, LinExpr.val, hc.2.2.1,
          Dict.sum]
      simp only [Except.ok.injEq] at h
      subst h
      refine ⟨⟨(hone _).mpr ?_, (hone _).mpr ?_, (hsat _).mpr ?_⟩, fun y hy => ?_⟩
      · exact ⟨(le_max_left _ _).trans (le_max_left _ _), max_le hc.2.2.2.2 (min_le_left _ _)⟩
      · intro h'; rw [hc.1] at h'; simp at h'
      · exact (le_max_right _ _).trans (le_max_left _ _)
      · have b := (hone _).mp hy.1
        have b' := (hsat _).mp hy.2.2
        rw [hs.1, hval, hval]
        have := parabola_min (b := Dict.get op.objective.linear.coeffs 0) hc.2.1 hc.2.2.2.2 (y 0) (max_le b.1 b') b.2
        simp only [ObjSense.value, pt, one_mul, List.getD_cons_zero]
        linarith
    · simp at h
  · simp at h

theorem norm1_ge (v : List ℚ) (i : Nat) : |pt v i| ≤ norm1 v := by
  unfold norm1 pt
  rw [List.getD_eq_getElem?_getD]
  cases h : v[i]? with
  | none => simpa using List.sum_nonneg (by simp)
  | some a =>
    simp only [Option.getD_some]
    exact List.single_le_sum (by simp) _ (List.mem_map.mpr ⟨a, List.mem_of_getElem? h, rfl⟩)

/-- Two blocks: the second iterate has residual zero and satisfies the constraint. -/
example : admmHideQP.WF ∧ (∀ t op v, exactOne t op = .ok v → v.length = op.numVars → op.Feas (pt v)) ∧
    (∀ v i, |pt v i| ≤ norm1 v) ∧
    (admmSolve exactOne exactOne norm1 (fun _ => true) { admmDefaults 10 with threeBlock := false } admmHideQP).toOption.map
      (fun a => (a.point, a.state.x0Saved, a.state.zSaved, a.state.residuals, a.state.consR)) =
      some ([1], [[0], [1]], [[1], [0], [1], [0]], [1, 0], [1, 0]) :=
  ⟨by decide +kernel, fun t op v h _ => (exactOne_optimal t op v h).1, norm1_ge, by decide +kernel⟩

theorem one_objective (x : Nat → ℚ) : admmHideQP.objective.val x = x 0 := by
  have h1 : admmHideQP.objective.linear.coeffs = [(0, 1)] := by decide +kernel
  have h2 : admmHideQP.objective.quadratic.coeffs = [] := by decide +kernel
  have h3 : admmHideQP.objective.constant = 0 := by decide +kernel
  simp [Objective.val, LinExpr.val, QuadExpr.val, h1, h2, h3, Dict.sum]

theorem one_binSum (f : Nat → Nat → ℚ) : admmHideQP.binSum f = f 0 0 := by
  have h1 : admmHideQP.numVars = 1 := by decide +kernel
  have h2 : admmHideQP.isBinary 0 = true := by decide +kernel
  have h3 : admmHideQP.rank .binary 0 = 0 := by decide +kernel
  simp [QP.binSum, h1, h2, h3, List.range_succ]

theorem one_binEq (x : Nat → ℚ) : admmHideQP.binEqSquares x = 0 := by
  have h1 : admmHideQP.lins.filter (LinCst.isBinEq admmHideQP) = [] := by decide +kernel
  simp [QP.binEqSquares, h1]

/-- Step 1 sets the variable to zero. -/
theorem one_step1 {rho lam0 z0 y0 : ℚ} {lam z y : List ℚ} {n : Nat} {op : QP} {w : List ℚ}
    (h : Step1Program (admmDefaults n) admmHideQP [0] rho lam z y op) (hw : OptimalIn op.Feas op.objective (pt w))
    (hl : pt lam 0 = lam0) (hz : pt z 0 = z0) (hy : pt y 0 = y0) (hpos : 0 < 1 + lam0 + rho / 2 * (1 - 2 * (z0 + y0))) :
    pt w 0 = 0 := by
  obtain ⟨hf, ho⟩ := hw
  have hv : op.vars[0]? = some ⟨"b", 0, 1, .binary⟩ := h.vars 0 0 ⟨"b", 0, 1, .binary⟩ rfl (by decide +kernel)
  have hv' : op.vars = [⟨"b", 0, 1, .binary⟩] := by
    have := h.count
    match hvs : op.vars with
    | [] => simp [hvs] at hv
    | [v] => simp [hvs] at hv; rw [hv]
    | _ :: _ :: _ => simp [QP.numVars, hvs] at this
  obtain ⟨K, hK⟩ := h.value
  have hval : ∀ x : Nat → ℚ, op.objective.val x + K = x 0 + (lam0 * (x 0 - z0 - y0) + rho / 2 * (x 0 - z0 - y0) ^ 2) := by
    intro x
    have := hK x (fun i => if i = 0 then x 0 else 0)
      (fun k i hk => by
        cases k with
        | zero => simp at hk; subst hk; rfl
        | succ k => simp at hk)
      (fun i hi => by simp at hi; simp [hi])
    rw [this, one_objective, one_binEq, QP.coupling, one_binSum, hl, hz, hy]
    simp
  have hb := hf.1 0 _ hv
  obtain ⟨c, hc⟩ := hf.2.1 0 _ hv (by simp)
  simp only [hc] at hb
  have b1 : 0 ≤ c := by exact_mod_cast hb.1
  have b2 : c ≤ 1 := by exact_mod_cast hb.2
  have hcase : c = 0 ∨ c = 1 := by omega
  rcases hcase with rfl | rfl
  · simpa using hc
  · exfalso
    have h0 := ho (fun _ => 0) ⟨fun i v hi => ?_, fun i v _ _ => ⟨0, by norm_num⟩, by
      simp [QP.Sat, QP.allCsts, h.lins, h.quads]⟩
    · rw [h.sense] at h0
      simp only [ObjSense.value, one_mul] at h0
      have e1 := hval (pt w)
      have e0 := hval (fun _ => 0)
      rw [hc] at e1
      simp only [Int.cast_one] at e1
      nlinarith
    · rw [hv'] at hi
      cases i with
      | zero => simp at hi; subst hi; norm_num
      | succ i => simp at hi

/-- Step 3 with `x0 = 0` and `z = 1`. -/
theorem one_step3 {rho lam0 : ℚ} {lam x0 z : List ℚ} {n : Nat} {op : QP} {y : List ℚ}
    (h : Step3Program (admmDefaults n) admmHideQP rho lam x0 z op) (hw : OptimalIn op.Feas op.objective (pt y))
    (hl : pt lam 0 = lam0) (hx : pt x0 0 = 0) (hz : pt z 0 = 1) (hrho : 10000 ≤ rho) (h1 : -1000 ≤ lam0) (h2 : lam0 ≤ 0) :
    (1000 + rho) * pt y 0 = lam0 - rho := by
  have hc : admmHideQP.countType .binary = 1 := by decide +kernel
  have hb : (admmDefaults n).beta = 1000 := rfl
  have hr : 0 < 1000 + rho := by linarith
  obtain ⟨m1, m2⟩ := C64_minimum (admmDefaults n) admmHideQP rho lam x0 z op h (by rw [hb]; exact hr)
    (fun j => if j = 0 then (lam0 - rho) / (1000 + rho) else 0) (fun j hj => by
      obtain rfl : j = 0 := by omega
      rw [hl, hx, hz, hb]
      simp only [if_true]
      ring) (pt y)
  have hv : op.vars[0]? = some ⟨"b", -INFINITY, INFINITY, .continuous⟩ := by
    have := h.vars 0 ⟨"b", 0, 1, .binary⟩ (by decide +kernel) rfl
    rwa [show admmHideQP.rank .binary 0 = 0 by decide +kernel] at this
  have hv' : op.vars = [⟨"b", -INFINITY, INFINITY, .continuous⟩] := by
    have := h.count
    rw [hc] at this
    match hvs : op.vars with
    | [] => simp [hvs] at hv
    | [v] => simp [hvs] at hv; rw [hv]
    | _ :: _ :: _ => simp [QP.numVars, hvs] at this
  have h0 := hw.2 (fun j => if j = 0 then (lam0 - rho) / (1000 + rho) else 0) ⟨fun i v hi => ?_, fun i v hi ht => ?_, by
    simp [QP.Sat, QP.allCsts, h.lins, h.quads]⟩
  · rw [h.sense] at h0
    simp only [ObjSense.value, one_mul] at h0
    have := m2 h0 0 (by rw [hc]; norm_num)
    simp only [if_true] at this
    rw [this]
    field_simp
  · rw [hv'] at hi
    cases i with
    | zero =>
      simp at hi; subst hi
      simp only [if_true, INFINITY]
      constructor
      · rw [le_div_iff₀ hr]; nlinarith
      · rw [div_le_iff₀ hr]; nlinarith
    | succ i => simp at hi
  · rw [hv'] at hi
    cases i with
    | zero => simp at hi; subst hi; simp at ht
    | succ i => simp at hi

/-- Every iterate. -/
theorem one_iterates {qubo cont : Solver} {norm : List ℚ → ℚ} {n : Nat} {a : AdmmResult} {conv : I2B} {start : AdmmState}
    {hist : List Iterate} (hf : AdmmFacts qubo cont norm (admmDefaults n) admmHideQP a conv admmHideQP start hist)
    (hqubo : ∀ t op w, qubo t op = .ok w → OptimalIn op.Feas op.objective (pt w))
    (hcont : ∀ t op w, cont t op = .ok w → OptimalIn op.Feas op.objective (pt w)) (k : Nat) :
    ∀ g : Iterate, hist[k]? = some g → pt g.x0 0 = 0 ∧ pt g.z 0 = 1 ∧ -1 ≤ pt g.y 0 ∧ pt g.y 0 ≤ -10 / 11 ∧
      10000 ≤ g.rho ∧ pt g.lam 0 + g.rho * (pt g.x0 0 - pt g.z 0 - pt g.y 0) = 1000 * pt g.y 0 := by
  have hsel : a.rep.step1Abs = [0] := by
    have : (admmRep admmHideQP).toOption.map AdmmRep.step1Abs = some [0] := by decide +kernel
    rw [hf.rep] at this
    simpa [Except.toOption] using this
  have hc : admmHideQP.countType .binary = 1 := by decide +kernel
  have hvar : admmHideQP.vars[0]? = some ⟨"b", 0, 1, .binary⟩ := by decide +kernel
  have hrank : admmHideQP.rank .binary 0 = 0 := by decide +kernel
  -- one iteration
  have hstep : ∀ (k : Nat) (g : Iterate) (s : AdmmState), s.rho = g.rho → s.lam = g.lam →
      updateX0 qubo k (admmDefaults n) a.rep s = .ok g.x0 →
      updateX1 cont (2 * k + 1) a.rep { s with x0 := g.x0 } = .ok (g.u, g.z) →
      updateY cont (2 * k + 2) (admmDefaults n) a.rep { s with x0 := g.x0, u := g.u, z := g.z } = .ok g.y →
      10000 ≤ g.rho → pt g.lam 0 = 1000 * pt s.y 0 →
      (pt s.z 0 = 0 ∧ pt s.y 0 = 0 ∨ pt s.z 0 = 1 ∧ -1 ≤ pt s.y 0 ∧ pt s.y 0 ≤ -10 / 11) →
      pt g.x0 0 = 0 ∧ pt g.z 0 = 1 ∧ -1 ≤ pt g.y 0 ∧ pt g.y 0 ≤ -10 / 11 ∧
      10000 ≤ g.rho ∧ pt g.lam 0 + g.rho * (pt g.x0 0 - pt g.z 0 - pt g.y 0) = 1000 * pt g.y 0 := by
    intro k g s s2 s3 s4 s5 s6 hrho hlam hcase
    have hx0 : pt g.x0 0 = 0 := by
      rcases updateX0_inv hf.wf hf.rep s4 with ⟨e, _⟩ | ⟨_, op, w, w1, w2, w3, w4, w5, _⟩
      · rw [hsel] at e; simp at e
      · have := step1Program_of hf.wf hf.rep w1
        rw [hsel, s2, s3] at this
        have h0 := one_step1 this (hqubo _ _ _ w2) rfl rfl rfl (by
          rw [hlam]
          rcases hcase with ⟨c1, c2⟩ | ⟨c1, c2, c3⟩ <;> rw [c1] <;> nlinarith)
        have h1 := w5 0 0 (by rw [hsel]; rfl)
        rw [hrank] at h1
        rw [h1, h0]
    have hz : pt g.z 0 = 1 := by
      obtain ⟨op, v, v1, v2, v3, v4, v5⟩ := updateX1_inv hf.rep s5
      obtain ⟨f1, f2, f3, _⟩ := step2_facts hf.wf hf.rep v1
      obtain ⟨⟨g1, _, g3⟩, _⟩ := hcont _ _ _ v2
      have b := g1 0 ⟨"b", 0, 1, .continuous⟩ (by rw [f1, List.getElem?_map, hvar]; rfl)
      have hl : ∃ c ∈ op.lins, c.sense = .ge ∧ c.rhs = 1 ∧ c.linear.coeffs = [(0, 1)] := by
        rw [f2]; decide +kernel
      obtain ⟨c, c1, c2, c3, c4⟩ := hl
      have := g3 (.lin c) (List.mem_append_left _ (List.mem_map.mpr ⟨c, c1, rfl⟩))
      simp [Cst.sense, Cst.rhs, Cst.val, c2, c3, LinExpr.val, c4, Sense.rel, Dict.sum] at this
      have e := takeIdx_pt v5 hvar rfl
      rw [hrank] at e
      rw [← e]
      exact le_antisymm b.2 this
    have hy : (1000 + g.rho) * pt g.y 0 = 1000 * pt s.y 0 - g.rho := by
      rcases updateY_inv hf.rep s6 with ⟨_, _, op, o1, _, o3⟩ | ⟨c1, _⟩
      · simp only [s2, s3] at o3
        exact one_step3 o3 (hcont _ _ _ o1) hlam hx0 hz hrho
          (by rcases hcase with ⟨c1, c2⟩ | ⟨c1, c2, c3⟩ <;> linarith)
          (by rcases hcase with ⟨c1, c2⟩ | ⟨c1, c2, c3⟩ <;> linarith)
      · rw [hc] at c1
        exact absurd c1 (by simp [admmDefaults])
    have hys : -1 ≤ pt s.y 0 ∧ pt s.y 0 ≤ 0 := by
      rcases hcase with ⟨c1, c2⟩ | ⟨c1, c2, c3⟩ <;> constructor <;> linarith
    refine ⟨hx0, hz, ?_, ?_, hrho, ?_⟩
    · by_contra hn
      push Not at hn
      nlinarith
    · by_contra hn
      push Not at hn
      nlinarith
    · rw [hx0, hz, hlam]; linarith
  induction k with
  | zero =>
    intro g hg
    obtain ⟨s, s1, s2, s3, s4, s5, s6⟩ := iteration_facts hf hg
    obtain ⟨r1, r2⟩ := hf.trace.first g hg
    obtain ⟨z1, z2⟩ := s1.1 rfl
    refine hstep 0 g s s2 s3 s4 s5 s6 (by rw [r1]; exact le_refl _) ?_ (Or.inl ⟨z2 rfl 0, z1 0⟩)
    rw [r2, hc, z1]; simp [pt]
  | succ k ih =>
    intro g hg
    obtain ⟨s, s1, s2, s3, s4, s5, s6⟩ := iteration_facts hf hg
    have hk : k < hist.length := by
      have := (List.getElem?_eq_some_iff.mp hg).1; omega
    have hk' : hist[k]? = some hist[k] := List.getElem?_eq_getElem hk
    obtain ⟨i1, i2, i3, i4, i5, i6⟩ := ih _ hk'
    obtain ⟨e1, e2⟩ := s1.2 k _ rfl hk'
    obtain ⟨_, _, _, _, n1, n2⟩ := hf.trace.next k _ _ hk' hg
    refine hstep (k + 1) g s s2 s3 s4 s5 s6 ?_ ?_ (Or.inr ⟨by rw [e1]; exact i2, by rw [e2]; exact i3, by rw [e2]; exact i4⟩)
    · rw [n1, updateRho, if_pos (by rfl)]
      split <;> linarith
    · rw [n2, e2, Iterate.nextLam, pt_map_range, if_pos (by rw [hc]; norm_num), i6]

/-- **C85 fails** with the third block: for `minimize b` subject to `b >= 1` and the default parameters, with any exact
solvers of the blocks, any number of iterations and any norm, the answer is `b = 0`, although `b = 1` is feasible; and
there are exact solvers for which the iterations end after four of ten because the primal residual is below the tolerance. -/
theorem C85_violated : ∃ p : QP, p.WF ∧ p.ShapeOK ∧ p.Feas (pt [1]) ∧ ¬ p.Sat (pt [0]) ∧
    (∀ (qubo cont : Solver) (norm : List ℚ → ℚ) (clock : Nat → Bool) (n : Nat) (a : AdmmResult),
      (∀ t op w, qubo t op = .ok w → OptimalIn op.Feas op.objective (pt w)) →
      (∀ t op w, cont t op = .ok w → OptimalIn op.Feas op.objective (pt w)) →
      admmSolve qubo cont norm clock (admmDefaults n) p = .ok a → a.result.x = some [0]) ∧
    ∃ (qubo cont : Solver) (a : AdmmResult),
      (∀ t op w, qubo t op = .ok w → OptimalIn op.Feas op.objective (pt w)) ∧
      (∀ t op w, cont t op = .ok w → OptimalIn op.Feas op.objective (pt w)) ∧
      admmSolve qubo cont norm1 (fun _ => true) (admmDefaults 10) p = .ok a ∧ a.state.residuals.length = 4 ∧
      ∃ r, a.state.residuals[3]? = some r ∧ r < (admmDefaults 10).tol := by
  have hsat : ∀ x, admmHideQP.Sat x ↔ 1 ≤ x 0 := by
    intro x
    have h1 : admmHideQP.lins.map (fun c => (c.linear.coeffs, c.sense, c.rhs)) = [([(0, 1)], .ge, 1)] := by decide +kernel
    have h2 : admmHideQP.quads = [] := by decide +kernel
    match hl : admmHideQP.lins with
    | [] => simp [hl] at h1
    | [c] =>
      simp only [hl, List.map_cons, List.map_nil, List.cons.injEq, Prod.mk.injEq, and_true] at h1
      simp [QP.Sat, QP.allCsts, hl, h2, Cst.sense, Cst.rhs, Cst.val, h1, LinExpr.val, Sense.rel, Dict.sum]
    | _ :: _ :: _ => simp [hl] at h1
  refine ⟨admmHideQP, by decide +kernel, by decide +kernel, ?_, ?_, ?_, ?_⟩
  · have hv : admmHideQP.vars = [⟨"b", 0, 1, .binary⟩] := by decide +kernel
    refine ⟨fun i v hi => ?_, fun i v hi _ => ?_, (hsat _).mpr (by simp [pt])⟩ <;> rw [hv] at hi <;> cases i with
    | zero => simp at hi; subst hi; first | exact ⟨1, rfl⟩ | simp [pt]
    | succ i => simp at hi
  · rw [hsat]; simp [pt]
  · intro qubo cont norm clock n a hqubo hcont h
    obtain ⟨conv, q, start, hist, hf⟩ := admmSolve_facts (by decide +kernel) h
    have hconv : admmHideQP.intToBin = .ok ⟨admmHideQP, admmHideQP, []⟩ := by
      simp [QP.intToBin, show admmHideQP.numIntegerVars = 0 by decide +kernel]
    have h1 := hf.hconv
    rw [hconv, Except.ok.injEq] at h1
    subst h1
    have h2 := hf.turn
    rw [show turnToMinimization admmHideQP = .ok admmHideQP by
      simp [turnToMinimization, show admmHideQP.objective.sense = .minimize by decide +kernel], Except.ok.injEq] at h2
    subst h2
    obtain ⟨k, it, k1, k2, _⟩ := hf.best
    have h0 := (one_iterates hf hqubo hcont k it k1).1
    have hp : a.point = [0] := by
      have hl := k2.1
      rw [show admmHideQP.numVars = 1 by decide +kernel] at hl
      have := (k2.2 0 ⟨"b", 0, 1, .binary⟩ (by decide +kernel)).1 rfl
      rw [show admmHideQP.rank .binary 0 = 0 by decide +kernel, h0] at this
      match hpt : a.point with
      | [] => simp [hpt] at hl
      | [v] => rw [hpt] at this; simp [pt] at this; rw [this]
      | _ :: _ :: _ => simp [hpt] at hl
    have hi := hf.interp
    rw [hp] at hi
    have : (interpretResult admmHideQP [I2B.interpret ⟨admmHideQP, admmHideQP, []⟩] [] [] [0]).toOption.map (fun r => r.x) =
        some (some [0]) := by decide +kernel
    rw [hi] at this
    simpa [Except.toOption] using this
  · have h : (admmSolve exactOne exactOne norm1 (fun _ => true) (admmDefaults 10) admmHideQP).toOption.map
        (fun a => (a.state.residuals.length, decide ((a.state.residuals[3]?.getD 1) < (admmDefaults 10).tol))) =
        some (4, true) := by decide +kernel
    cases ha : admmSolve exactOne exactOne norm1 (fun _ => true) (admmDefaults 10) admmHideQP with
    | error e => simp [ha, Except.toOption] at h
    | ok a =>
      simp only [ha, Except.toOption, Option.map_some, Option.some.injEq, Prod.mk.injEq, decide_eq_true_eq] at h
      refine ⟨exactOne, exactOne, a, exactOne_optimal, exactOne_optimal, ha, h.1, ?_⟩
      cases hr : a.state.residuals[3]? with
      | none => rw [List.getElem?_eq_none_iff] at hr; omega
      | some r => exact ⟨r, rfl, by simpa [hr] using h.2⟩

end Verif
