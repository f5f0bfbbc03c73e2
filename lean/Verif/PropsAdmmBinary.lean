import Verif.AdmmBinary
import Verif.PropsItems

/-!
# ADMM on binary programs (C101)
-/

namespace Verif

open Finset (range sum_congr)

theorem binEqSquares_nonneg (q : QP) (x : Nat → ℚ) : 0 ≤ q.binEqSquares x := by
  unfold QP.binEqSquares
  refine List.sum_nonneg fun v hv => ?_
  obtain ⟨c, _, rfl⟩ := List.mem_map.mp hv
  positivity

theorem binEqSquares_sat {q : QP} {x : Nat → ℚ} (h : q.Sat x) : q.binEqSquares x = 0 := by
  unfold QP.binEqSquares
  refine List.sum_eq_zero fun v hv => ?_
  obtain ⟨c, hc, rfl⟩ := List.mem_map.mp hv
  obtain ⟨hm, hbe⟩ := List.mem_filter.mp hc
  simp only [LinCst.isBinEq, Bool.and_eq_true, decide_eq_true_eq] at hbe
  have := h (.lin c) (by simp [QP.allCsts, hm])
  simp only [Cst.sense, Cst.val, Cst.rhs, hbe.1, Sense.rel] at this
  simp [this]

/-- **C101, the part that holds.**  Full statement: for a program whose variables are all binary, ADMM returns an optimal
point if its optimizers do.  Proved: without constraints, and if every variable has a linear coefficient, the value of the
returned point is worse than that of any other binary point by at most `rho_initial / 2` for each one in that other point.
Missing (false, `C101_violated`): optimality; programs with constraints. -/
theorem C101_bound_partial (qubo cont : Solver) (norm : List ℚ → ℚ) (clock : Nat → Bool) (prm : AdmmParams) (p : QP) (hp : p.WF)
    (hb : ∀ v ∈ p.vars, v.vartype = .binary) (hl : p.lins = []) (hqd : p.quads = [])
    (hi : ∀ i < p.numVars, Dict.get p.objective.linear.coeffs i ≠ 0) (hr : 0 ≤ prm.rhoInitial)
    (hw : prm.warmStart = false) (hq : OptimalAnswers qubo)
    (a : AdmmResult) (h : admmSolve qubo cont norm clock prm p = .ok a) :
    ∃ y, a.result.x = some y ∧ a.result.fval = some (p.objective.val (pt y)) ∧
      ∀ x : Nat → ℚ, (∀ i, x i = 0 ∨ x i = 1) → p.objective.sense.value * p.objective.val (pt y) ≤
        p.objective.sense.value * p.objective.val x + prm.rhoInitial / 2 * ∑ i ∈ range p.numVars, x i := by
  obtain ⟨conv, q, start, hist, hF⟩ := admmSolve_facts hp h
  obtain ⟨hcv, y, y1, y2, y3, y4⟩ := hF.plain hp (fun v hv => by simp [hb v hv])
  subst hcv
  obtain ⟨q', hq', s1, s2, s3, s4, s5, s6⟩ := turnToMinimization_sign p
  have hqq := hF.turn
  rw [hq', Except.ok.injEq] at hqq
  subst hqq
  have hbq : ∀ v ∈ q'.vars, v.vartype = .binary := by rw [s3]; exact hb
  have hnum : q'.numVars = p.numVars := by simp [QP.numVars, s3]
  have hval : ∀ x, q'.objective.val x = p.objective.sense.value * p.objective.val x := fun x => by
    rw [s2]; cases p.objective.sense <;> simp [ObjSense.value]
  obtain ⟨k, gk, k1, k2, k3⟩ := hF.best
  obtain ⟨hk, _⟩ := List.getElem?_eq_some_iff.mp k1
  obtain ⟨g, hg⟩ : ∃ g, hist[0]? = some g := ⟨_, List.getElem?_eq_getElem (by omega)⟩
  obtain ⟨f1, f2, f3⟩ := first_iterate hF hw hbq hq hg
  obtain ⟨x0, a1, _⟩ := (hF.trace.steps 0 g hg).point
  have hviol : ∀ x, q'.violation x = 0 := fun x => by simp [QP.violation, QP.allCsts, s5, s6, hl, hqd]
  have hbest := (k3 0 g x0 hg a1).1
  rw [hviol, hviol] at hbest
  have hx0 : ∀ i < q'.numVars, pt x0 i = pt g.x0 i := fun i hi => by
    obtain ⟨v, hv⟩ := lt_numVars hi
    have := (a1.2 i v hv).1 (hbq v (List.mem_of_getElem? hv))
    rwa [binary_rank hbq hi.le] at this
  have hsq : ∀ x, q'.binEqSquares x = 0 := fun x => by simp [QP.binEqSquares, s5, hl]
  refine ⟨y, y1, y4, fun x hx => ?_⟩
  have hyp : q'.objective.val (pt y) = q'.objective.val (pt a.point) :=
    Objective.val_congr hF.wf fun i hi => y3 i (by omega)
  have hxg : q'.objective.val (pt x0) = q'.objective.val (pt g.x0) := Objective.val_congr hF.wf hx0
  obtain ⟨_, _, _, _, _, _, r7, _⟩ := admmRep_inv hF.rep
  have hsel := (step1Absolute_inv hF.wf r7).2
  have hall : ∀ i < p.numVars, i ∈ a.rep.step1Abs := fun i hi' => by
    obtain ⟨v, hv⟩ := lt_numVars (show i < q'.numVars by omega)
    exact (hsel i).mpr ⟨⟨v, hv, hbq v (List.mem_of_getElem? hv)⟩, .inl (.inl (by
      rw [turned_linear hq']
      exact mul_ne_zero (by cases p.objective.sense <;> simp [ObjSense.value]) (hi i hi')))⟩
  have hc := f3 (fun i => if i < p.numVars then x i else 0) (fun i => by split; exacts [hx i, .inl rfl])
    (fun i hni => if_neg fun hlt => hni (hall i hlt))
  unfold firstCost at hc
  rw [hsq, hsq, hnum] at hc
  have e1 : q'.objective.val (fun i => if i < p.numVars then x i else 0) = q'.objective.val x :=
    Objective.val_congr hF.wf fun i hi => if_pos (by omega)
  have e2 : ∑ i ∈ range p.numVars, (if i < p.numVars then x i else 0) ^ 2 = ∑ i ∈ range p.numVars, x i :=
    sum_congr rfl fun i hi => by
      rw [if_pos (Finset.mem_range.mp hi)]
      rcases hx i with e | e <;> rw [e] <;> norm_num
  rw [e1, e2, hval x] at hc
  rw [← hval, hyp]
  have : 0 ≤ prm.rhoInitial / 2 * ∑ i ∈ range p.numVars, pt g.x0 i ^ 2 :=
    mul_nonneg (by linarith) (Finset.sum_nonneg fun i _ => by positivity)
  linarith

theorem pt_zero_eq {x : List ℚ} {n : Nat} (hl : x.length = n) (h : ∀ i < n, pt x i = 0) : x = List.replicate n 0 := by
  refine List.ext_getElem (by simp [hl]) fun i h1 h2 => ?_
  have := h i (by omega)
  simpa [pt, List.getD_eq_getElem?_getD, List.getElem?_eq_getElem h1] using this

/-- **C101** (what happens): for a program whose variables are all binary and whose objective is a sum over the variables, if
zero satisfies all constraints and no coefficient favours a variable by `rho_initial / 2` or more, then ADMM stops after one
iteration and returns zero, for all optimizers with optimal answers. -/
theorem C101_stuck (qubo cont : Solver) (norm : List ℚ → ℚ) (clock : Nat → Bool) (prm : AdmmParams) (p : QP) (hp : p.WF)
    (hb : ∀ v ∈ p.vars, v.vartype = .binary) (c : Nat → ℚ)
    (hc : ∀ x : Nat → ℚ, (∀ i, x i = 0 ∨ x i = 1) → p.objective.val x = p.objective.constant + ∑ i ∈ range p.numVars, c i * x i)
    (hs : ∀ i < p.numVars, -(prm.rhoInitial / 2) < p.objective.sense.value * c i) (h0 : p.Sat fun _ => 0)
    (hr : 0 < prm.rhoInitial) (hfc : 0 ≤ prm.factorC) (hbeta : 0 ≤ prm.beta) (ht : 0 ≤ prm.tol)
    (hn : ∀ m, norm (List.replicate m 0) = 0) (hw : prm.warmStart = false) (hq : OptimalAnswers qubo) (hct : OptimalAnswers cont)
    (a : AdmmResult) (h : admmSolve qubo cont norm clock prm p = .ok a) :
    a.result.x = some (List.replicate p.numVars 0) ∧ a.state.residuals = [0] := by
  obtain ⟨n1, n2, _⟩ := C95_stops qubo cont norm clock prm p a h
  obtain ⟨conv, q, start, hist, hF⟩ := admmSolve_facts hp h
  obtain ⟨hcv, y, y1, y2, y3, y4⟩ := hF.plain hp (fun v hv => by simp [hb v hv])
  subst hcv
  obtain ⟨q', hq', s1, s2, s3, s4, s5, s6⟩ := turnToMinimization_sign p
  have hqq := hF.turn
  rw [hq', Except.ok.injEq] at hqq
  subst hqq
  have hbq : ∀ v ∈ q'.vars, v.vartype = .binary := by rw [s3]; exact hb
  have hnum : q'.numVars = p.numVars := by simp [QP.numVars, s3]
  have hcon : ∀ o : Objective, o.val (fun _ => 0) = o.constant := fun o => by
    simp [Objective.val, LinExpr.val, QuadExpr.val, Dict.sum]
  have hval : ∀ x, q'.objective.val x = p.objective.sense.value * p.objective.val x := fun x => by
    rw [s2]; cases p.objective.sense <;> simp [ObjSense.value]
  have hcq : ∀ x : Nat → ℚ, (∀ i, x i = 0 ∨ x i = 1) → q'.objective.val x = q'.objective.constant +
      ∑ i ∈ range q'.numVars, (p.objective.sense.value * c i) * x i := fun x hx => by
    rw [hval, hc x hx, ← hcon q'.objective, hval, hcon, hnum, mul_add, Finset.mul_sum]
    congr 1
    exact sum_congr rfl fun i _ => by ring
  have hno := products_none hF.wf hcq
  have hsat : q'.Sat fun _ => 0 := by
    unfold QP.Sat QP.allCsts at h0 ⊢
    rw [s5, s6]; exact h0
  obtain ⟨k, gk, k1, k2, _⟩ := hF.best
  obtain ⟨hk, _⟩ := List.getElem?_eq_some_iff.mp k1
  obtain ⟨g, hg⟩ : ∃ g, hist[0]? = some g := ⟨_, List.getElem?_eq_getElem (by omega)⟩
  -- step 1
  obtain ⟨f1, f2, f3⟩ := first_iterate hF hw hbq hq hg
  have hx0 : ∀ i < q'.numVars, pt g.x0 i = 0 := by
    have hle := f3 (fun _ => 0) (fun _ => .inl rfl) (fun _ _ => rfl)
    unfold firstCost at hle
    rw [hcq _ f1, hcq _ (fun _ => .inl rfl), binEqSquares_sat hsat] at hle
    simp only [mul_zero, Finset.sum_const_zero, add_zero, ne_eq, OfNat.ofNat_ne_zero, not_false_eq_true, zero_pow] at hle
    have hsq := mul_nonneg (show 0 ≤ prm.factorC / 2 by linarith) (binEqSquares_nonneg q' (pt g.x0))
    have hsum : ∑ i ∈ range q'.numVars, (p.objective.sense.value * c i + prm.rhoInitial / 2) * pt g.x0 i ≤ 0 := by
      have e : ∑ i ∈ range q'.numVars, (p.objective.sense.value * c i + prm.rhoInitial / 2) * pt g.x0 i =
          ∑ i ∈ range q'.numVars, p.objective.sense.value * c i * pt g.x0 i +
            prm.rhoInitial / 2 * ∑ i ∈ range q'.numVars, pt g.x0 i ^ 2 := by
        rw [Finset.mul_sum, ← Finset.sum_add_distrib]
        refine sum_congr rfl fun i _ => ?_
        rcases f1 i with e | e <;> rw [e] <;> ring
      rw [e]
      linarith
    have hnn : ∀ i ∈ range q'.numVars, 0 ≤ (p.objective.sense.value * c i + prm.rhoInitial / 2) * pt g.x0 i := fun i hi => by
      have := hs i (by rw [← hnum]; exact Finset.mem_range.mp hi)
      refine mul_nonneg (by linarith) ?_
      rcases f1 i with e | e <;> rw [e] <;> norm_num
    intro i hi
    have hz := (Finset.sum_eq_zero_iff_of_nonneg hnn).mp (le_antisymm hsum (Finset.sum_nonneg hnn)) i (Finset.mem_range.mpr hi)
    have := hs i (by omega)
    rcases mul_eq_zero.mp hz with e | e
    · linarith
    · exact e
  have hx0' : ∀ i, pt g.x0 i = 0 := fun i => by
    by_cases hi : i < q'.numVars
    · exact hx0 i hi
    · have hl := (hF.trace.steps 0 g hg).lx
      rw [binary_count hbq] at hl
      simp [pt, List.getD_eq_getElem?_getD, List.getElem?_eq_none (show g.x0.length ≤ i by omega)]
  obtain ⟨r1, r2⟩ := hF.trace.first g hg
  have hlam : ∀ i, pt g.lam i = 0 := fun i => by rw [r2]; exact pt_replicate_zero _ _
  obtain ⟨s, t1, t2, t3, _, t5, t6⟩ := iteration_facts hF hg
  have hy0 := (t1.1 rfl).1
  -- step 2
  obtain ⟨op, v, v1, v2, v3, v4, v5⟩ := updateX1_inv hF.rep t5
  obtain ⟨o1, o2, o3, o4, _⟩ := step2_facts hF.wf hF.rep v1
  have hlz := (hF.trace.steps 0 g hg).lz
  rw [binary_count hbq] at hlz
  have hvz : ∀ i, q'.isBinary i → pt g.z (q'.rank .binary i) = pt v i := fun i hi => by
    have hi' : i < q'.numVars := by
      by_contra hh
      rw [binary_isnot (by omega)] at hi
      simp at hi
    obtain ⟨w, hw'⟩ := lt_numVars hi'
    exact (takeIdx_pt v5 hw' (hbq w (List.mem_of_getElem? hw'))).symm
  have hfeas0 : op.Feas fun _ => 0 := by
    refine ⟨fun i w hi => ?_, fun i w _ _ => ⟨0, by simp⟩, fun cst hcst => ?_⟩
    · rw [o1, List.getElem?_map] at hi
      cases hv' : q'.vars[i]? with
      | none => simp [hv'] at hi
      | some w' =>
        simp only [hv', Option.map_some, hbq w' (List.mem_of_getElem? hv'), if_true, Option.some.injEq] at hi
        subst hi
        exact ⟨le_refl _, by norm_num⟩
    · refine hsat cst ?_
      unfold QP.allCsts at hcst ⊢
      rw [o2, o3] at hcst
      simp only [List.mem_append, List.mem_map, List.mem_filter] at hcst ⊢
      rcases hcst with ⟨l, ⟨hl, _⟩, rfl⟩ | hqd
      · exact .inl ⟨l, hl, rfl⟩
      · exact .inr hqd
  have hopt := (hct _ op v ⟨_, hfeas0⟩ v2).2 _ hfeas0
  rw [o4, s1] at hopt
  simp only [ObjSense.value, one_mul] at hopt
  obtain ⟨K, hK⟩ := step2_value hF.wf hF.rep v1 hno
  have hdrop : ∀ w : Nat → ℚ, q'.objective.val (q'.dropBinary w) = q'.objective.val fun _ => 0 := fun w =>
    Objective.val_congr hF.wf fun i hi => by simp [QP.dropBinary, binary_is hbq hi]
  have hz : ∀ i < q'.numVars, pt g.z i = 0 := by
    have e1 := hK (pt v) (fun _ => 0) g.z (fun i _ => (hx0' _).symm) hvz
    have e2 := hK (fun _ => 0) (fun _ => 0) [] (fun i _ => (hx0' _).symm) (fun i _ => by simp [pt])
    rw [hdrop, show q'.coupling _ _ _ _ _ = _ from coupling_zero hbq (by rw [t3]; exact hlam) hy0] at e1 e2
    have hsum : ∑ i ∈ range q'.numVars, (0 - pt g.z i) ^ 2 ≤ 0 := by
      have e3 : ∑ i ∈ range q'.numVars, ((0 : ℚ) - pt [] i) ^ 2 = 0 := Finset.sum_eq_zero fun i _ => by simp [pt]
      rw [e3] at e2
      have hrr : s.rho = prm.rhoInitial := by rw [t2, r1]
      simp only [hrr] at e1 e2
      by_contra hpos
      have := mul_pos (show 0 < prm.rhoInitial / 2 by linarith) (not_le.mp hpos)
      linarith
    have hnn : ∀ i ∈ range q'.numVars, 0 ≤ (0 - pt g.z i) ^ 2 := fun i _ => by positivity
    intro i hi
    have := (Finset.sum_eq_zero_iff_of_nonneg hnn).mp (le_antisymm hsum (Finset.sum_nonneg hnn)) i (Finset.mem_range.mpr hi)
    simpa using this
  -- step 3
  have hyg : ∀ i < q'.numVars, pt g.y i = 0 := by
    rcases updateY_inv hF.rep t6 with ⟨_, _, op3, p1, p2, p3⟩ | ⟨_, p2⟩
    · intro i hi
      simp only [t2, t3, r1] at p3
      have hpos : 0 < prm.beta + prm.rhoInitial := by linarith
      have hm := C64_minimum prm q' prm.rhoInitial g.lam g.x0 g.z op3 p3 hpos (fun _ => 0)
        (fun j hj => by
          rw [binary_count hbq] at hj
          rw [hlam, hx0', hz j hj]; simp) (pt g.y)
      have hf3 : op3.Feas fun _ => 0 := by
        refine ⟨fun j w hj => ?_, fun j w _ _ => ⟨0, by simp⟩, fun cst hcst => ?_⟩
        · have hjl : j < q'.numVars := by
            have := (List.getElem?_eq_some_iff.mp hj).1
            rw [← binary_count hbq, ← p3.count]; exact this
          obtain ⟨w', hw''⟩ := lt_numVars hjl
          have := p3.vars j w' hw'' (hbq w' (List.mem_of_getElem? hw''))
          rw [binary_rank hbq hjl.le, hj, Option.some.injEq] at this
          subst this
          constructor <;> norm_num [INFINITY]
        · simp [QP.allCsts, p3.lins, p3.quads] at hcst
      have ho3 := (hct _ op3 g.y ⟨_, hf3⟩ p1).2 _ hf3
      rw [p3.sense] at ho3
      simp only [ObjSense.value, one_mul] at ho3
      exact hm.2 ho3 i (by rw [binary_count hbq]; exact hi)
    · intro i _
      rw [p2]; exact hy0 i
  -- the end
  have hly := (hF.trace.steps 0 g hg).ly
  have hlx := (hF.trace.steps 0 g hg).lx
  rw [binary_count hbq] at hly hlx
  have ex := pt_zero_eq hlx hx0
  have ez := pt_zero_eq hlz hz
  have ey := pt_zero_eq hly hyg
  have hres : a.state.residuals[0]? = some 0 := by
    rw [(hF.trace.steps 0 g hg).primal, ex, ez, ey]
    have : ∀ m, vsub (vsub (List.replicate m 0) (List.replicate m 0)) (List.replicate m 0) = List.replicate m 0 := fun m => by
      simp [vsub]
    rw [this, hn]
  have hlen : a.state.residuals.length = 1 := by
    rw [hF.trace.lr] at n2 ⊢
    by_contra hne
    have := (n2 1 (by omega)).1
    simp [residualBefore, pt, List.getD_eq_getElem?_getD, hres] at this
    linarith
  have hk0 : k = 0 := by rw [hF.trace.lr] at hlen; omega
  subst hk0
  rw [hg, Option.some.injEq] at k1
  subst k1
  refine ⟨?_, ?_⟩
  · rw [y1, Option.some.injEq]
    refine pt_zero_eq y2 fun i hi => ?_
    obtain ⟨w, hw'⟩ := lt_numVars (show i < q'.numVars by omega)
    rw [y3 i hi, (k2.2 i w hw').1 (hbq w (List.mem_of_getElem? hw')), hx0']
  · obtain ⟨r, hr'⟩ := List.length_eq_one_iff.mp hlen
    rw [hr'] at hres ⊢
    simpa using hres

theorem filter_ones_sum (l : List Nat) (f x : Nat → ℚ) (hx : ∀ i ∈ l, x i = 0 ∨ x i = 1) :
    ((l.filter fun i => decide (x i = 1)).map f).sum = (l.map fun i => f i * x i).sum := by
  induction l with
  | nil => rfl
  | cons a l ih =>
    have ih := ih fun i hi => hx i (List.mem_cons_of_mem _ hi)
    rcases hx a List.mem_cons_self with e | e <;> simp [e, ih]

/-- **C101** (knapsacks): with the default parameters ADMM returns the empty selection for every knapsack problem with
values below 5000, for all optimizers with optimal answers. -/
theorem C101_knapsack (values weights : List ℚ) (capacity : ℚ) (hw : values.length ≤ weights.length) (h0 : 0 ≤ capacity)
    (hv : ∀ v ∈ values, v < 5000) (qubo cont : Solver) (hq : OptimalAnswers qubo) (hct : OptimalAnswers cont)
    (norm : List ℚ → ℚ) (hn : ∀ m, norm (List.replicate m 0) = 0) (clock : Nat → Bool) (maxiter : Nat) :
    ∃ p, knapsackProgram values weights capacity = .ok p ∧
      ∀ a, admmSolve qubo cont norm clock (admmDefaults maxiter) p = .ok a →
        ∃ x, a.result.x = some x ∧ x.length = values.length ∧ interpretSet x = [] ∧ a.result.fval = some 0 := by
  obtain ⟨p, hp, hb⟩ := loadModel_app (name := "Knapsack") (n := values.length) (min := false)
    (obj := DExpr.sum ((List.range values.length).map fun i => (DExpr.var i).smul (values.getD i 0)))
    (csts := [.linear (DExpr.sum ((List.range values.length).map fun i => (DExpr.var i).smul (weights.getD i 0))) .le
      (.const capacity) none]) (weightedSum_wf _ _) (by
      intro c hc
      rw [List.mem_singleton.mp hc]
      exact ⟨weightedSum_wf _ _, const_wf _ _, weightedSum_isQuad _ _, rfl⟩) (by
      intro c hc
      rw [List.mem_singleton.mp hc]
      exact ⟨Or.inl rfl, rfl⟩)
  have hk : knapsackProgram values weights capacity = .ok p := by unfold knapsackProgram; rw [if_neg (by omega), hp]
  obtain ⟨p', hk', hav, hse, hfe, hob⟩ := C46_model values weights capacity hw
  rw [hk, Except.ok.injEq] at hk'
  subst hk'
  have hnv : p.numVars = values.length := by rw [QP.numVars, hav, List.length_map, List.length_range]
  have hcon : p.objective.constant = 0 := by
    have h1 := hob (fun _ => 0) fun _ _ => .inl rfl
    have h2 : p.objective.val (fun _ => 0) = p.objective.constant := by
      simp [Objective.val, LinExpr.val, QuadExpr.val, Dict.sum]
    rw [h2] at h1
    simpa using h1
  refine ⟨p, hk, fun a ha => ?_⟩
  have hst := C101_stuck qubo cont norm clock (admmDefaults maxiter) p hb.wf
    (fun v hv => by
      rw [hav] at hv
      obtain ⟨i, _, rfl⟩ := List.mem_map.mp hv
      rfl) (fun i => values.getD i 0)
    (fun x hx => by
      rw [hob x fun i _ => hx i, hcon, zero_add, filter_ones_sum _ _ _ fun i _ => hx i, lsum_range, hnv])
    (fun i hi => by
      have := hv (values.getD i 0) (by
        rw [List.getD_eq_getElem?_getD, List.getElem?_eq_getElem (by omega)]; exact List.getElem_mem _)
      rw [hse]
      simp only [ObjSense.value, admmDefaults]
      linarith)
    ((hfe fun _ => 0).mpr ⟨fun _ _ => .inl rfl, by simpa using h0⟩).2.2
    (by norm_num [admmDefaults]) (by norm_num [admmDefaults]) (by norm_num [admmDefaults]) (by norm_num [admmDefaults])
    hn rfl hq hct a ha
  rw [hnv] at hst
  obtain ⟨conv, q, start, hist, hF⟩ := admmSolve_facts hb.wf ha
  obtain ⟨_, y, y1, y2, _, y4⟩ := hF.plain hb.wf (fun v hv => by
      rw [hav] at hv
      obtain ⟨i, _, rfl⟩ := List.mem_map.mp hv
      simp)
  have hy : y = List.replicate values.length 0 := by
    have := hst.1
    rw [y1, Option.some.injEq] at this
    exact this
  subst hy
  have hz : pt (List.replicate values.length (0 : ℚ)) = fun _ => 0 := funext fun i => pt_replicate_zero _ _
  refine ⟨_, y1, by simp, ?_, ?_⟩
  · rw [interpretSet_eq, interpretSides_eq]
    rw [List.filter_eq_nil_iff]
    intro i _
    have := pt_replicate_zero values.length i
    unfold pt at this
    simp only [this]
    simp
  · rw [y4, hz]
    have : p.objective.val (fun _ => 0) = p.objective.constant := by
      simp [Objective.val, LinExpr.val, QuadExpr.val, Dict.sum]
    rw [this, hcon]

/-- **C101 is violated**: a knapsack of capacity 1 and an item of value 3 and weight 1; for all optimizers with optimal answers
ADMM returns the empty knapsack. -/
theorem C101_violated (qubo cont : Solver) (hq : OptimalAnswers qubo) (hct : OptimalAnswers cont) (clock : Nat → Bool)
    (maxiter : Nat) : ∃ p, knapsackProgram [3] [1] 1 = .ok p ∧
      ∀ a, admmSolve qubo cont norm1 clock (admmDefaults maxiter) p = .ok a →
        ∃ x, a.result.x = some x ∧ ¬ OptimalIn p.Feas p.objective (pt x) := by
  obtain ⟨p, hp, h⟩ := C101_knapsack [3] [1] 1 (by simp) (by norm_num) (by norm_num) qubo cont hq hct norm1
    (fun m => by simp [norm1]) clock maxiter
  refine ⟨p, hp, fun a ha => ?_⟩
  obtain ⟨x, x1, x2, x3, x4⟩ := h a ha
  obtain ⟨p', hk', hav, hse, hfe, hob⟩ := C46_model [3] [1] 1 (by simp)
  rw [hp, Except.ok.injEq] at hk'
  subst hk'
  refine ⟨x, x1, fun ho => ?_⟩
  have hx : ∀ i < [(3 : ℚ)].length, pt x i = 0 ∨ pt x i = 1 := ((hfe _).mp ho.1).1
  have h1 := ho.2 (pt [1]) ((hfe _).mpr ⟨fun i hi => by
    have : i = 0 := by simpa using hi
    subst this; right; rfl, by decide +kernel⟩)
  rw [hse, hob _ hx, hob (pt [1]) (fun i hi => by
    have : i = 0 := by simpa using hi
    subst this; right; rfl)] at h1
  have hx0 : pt x 0 = 0 := by
    rcases hx 0 (by simp) with e | e
    · exact e
    · exfalso
      obtain ⟨v, rfl⟩ := List.length_eq_one_iff.mp x2
      have : v = 1 := by simpa [pt] using e
      subst this
      exact absurd x3 (by decide +kernel)
  have e1 : ((List.range [(3 : ℚ)].length).filter fun i => decide (pt [1] i = 1)) = [0] := by decide +kernel
  have e2 : ((List.range [(3 : ℚ)].length).filter fun i => decide (pt x i = 1)) = [] := by
    simp [hx0]
  rw [e1, e2] at h1
  simp [ObjSense.value] at h1
  linarith

/-! ## An optimizer with optimal answers -/

/-- Bounds and types of the variables. -/
def QP.boxes (p : QP) : List (ℚ × ℚ × VarType) := p.vars.map fun v => (v.lb, v.ub, v.vartype)

/-- Sum of the coefficients. -/
def Dict.total {κ : Type} (d : Dict κ) : ℚ := Dict.sum d fun _ => 1

/-- An optimizer for programs with one variable whose minimum is zero. -/
def zeroSolver : Solver := fun _ op =>
  if op.boxes ∈ [[(0, 1, .binary)], [(0, 1, .continuous)], [(-INFINITY, INFINITY, .continuous)]] ∧ op.quads = [] ∧
    (∀ c ∈ op.lins, c.sense = .le ∧ 0 ≤ c.rhs) ∧ op.objective.sense = .minimize ∧
    (∀ q ∈ op.objective.linear.coeffs, q.1 = 0) ∧ (∀ q ∈ op.objective.quadratic.coeffs, q.1 = (0, 0)) ∧
    0 ≤ Dict.total op.objective.quadratic.coeffs ∧
    (Dict.total op.objective.linear.coeffs = 0 ∨ (op.boxes = [(0, 1, .binary)] ∧
      0 ≤ Dict.total op.objective.linear.coeffs + Dict.total op.objective.quadratic.coeffs))
  then .ok [0] else .error .optimization

theorem sum_total {κ : Type} (d : Dict κ) (f : κ → ℚ) (k : κ) (h : ∀ q ∈ d, q.1 = k) : Dict.sum d f = Dict.total d * f k := by
  induction d with
  | nil => simp [Dict.sum, Dict.total]
  | cons a d ih =>
    have ih := ih fun q hq => h q (List.mem_cons_of_mem _ hq)
    have ha := h a List.mem_cons_self
    simp only [Dict.sum, Dict.total, List.map_cons, List.sum_cons] at ih ⊢
    rw [ih, ha]
    ring

theorem zeroSolver_optimal : OptimalAnswers zeroSolver := by
  intro t op v _ h
  unfold zeroSolver at h
  split at h
  case isFalse => cases h
  case isTrue hc =>
    obtain ⟨h1, h2, h3, h4, h5, h6, h7, h8⟩ := hc
    simp only [Except.ok.injEq] at h
    subst h
    have hz : pt [(0 : ℚ)] = fun _ => 0 := funext fun i => pt_replicate_zero 1 i
    rw [hz]
    have hbox : ∀ (i : Nat) w, op.vars[i]? = some w → op.boxes[i]? = some (w.lb, w.ub, w.vartype) := fun i w hw => by
      simp [QP.boxes, hw]
    have hval : ∀ x : Nat → ℚ, op.objective.val x = op.objective.constant + Dict.total op.objective.linear.coeffs * x 0 +
        Dict.total op.objective.quadratic.coeffs * (x 0 * x 0) := fun x => by
      simp only [Objective.val, LinExpr.val, QuadExpr.val]
      rw [sum_total _ _ 0 h5, sum_total _ _ (0, 0) h6]
    refine ⟨⟨fun i w hw => ?_, fun i w _ _ => ⟨0, by simp⟩, fun c hc => ?_⟩, fun y hy => ?_⟩
    · have := hbox i w hw
      simp only [List.mem_cons, List.not_mem_nil, or_false] at h1
      rcases h1 with e | e | e <;> rw [e] at this <;> cases i <;>
        simp only [List.getElem?_cons_zero, List.getElem?_cons_succ, List.getElem?_nil, Option.some.injEq, Prod.mk.injEq, reduceCtorEq] at this
      all_goals (rw [← this.1, ← this.2.1]; constructor <;> norm_num [INFINITY])
    · simp only [QP.allCsts, h2, List.map_nil, List.append_nil, List.mem_map] at hc
      obtain ⟨l, hl, rfl⟩ := hc
      obtain ⟨l1, l2⟩ := h3 l hl
      simp only [Cst.sense, Cst.val, Cst.rhs, l1, Sense.rel, LinExpr.val_zero]
      exact l2
    · rw [h4, hval, hval]
      simp only [ObjSense.value, one_mul, mul_zero, add_zero]
      rcases h8 with e | ⟨e1, e2⟩
      · rw [e, zero_mul, add_zero]
        have := mul_nonneg h7 (mul_self_nonneg (y 0))
        linarith
      · obtain ⟨w, hw⟩ : ∃ w, op.vars[0]? = some w := by
          cases hv : op.vars with
          | nil => simp [QP.boxes, hv] at e1
          | cons w l => exact ⟨w, rfl⟩
        have hb := hbox 0 w hw
        rw [e1] at hb
        simp only [List.getElem?_cons_zero, Option.some.injEq, Prod.mk.injEq] at hb
        obtain ⟨b1, b2, b3⟩ := hb
        obtain ⟨z, hz⟩ := hy.2.1 0 w hw (by rw [← b3]; simp)
        have hbd := hy.1 0 w hw
        rw [← b1, ← b2] at hbd
        rcases int_zero_one hz hbd.1 hbd.2 with e | e <;> rw [e] <;> linarith

/-- The hypotheses of `C101_stuck`, `C101_knapsack` and `C101_violated` are met: an actual run. -/
example : OptimalAnswers zeroSolver ∧ (match knapsackProgram [3] [1] 1 with
    | .ok p => (admmSolve zeroSolver zeroSolver norm1 (fun _ => true) (admmDefaults 10) p).toOption.map
        (fun a => (a.result.x, a.result.fval, a.result.status, a.state.residuals))
    | .error _ => none) = some (some [0], some 0, .success, [0]) := ⟨zeroSolver_optimal, by decide +kernel⟩

/-- `minimize 2 - 3 x` over a binary variable. -/
def singleBitQP : QP :=
  (runCalls (QP.empty "") [.addVar 0 1 .binary (some "x"), .objective .minimize 2 (.list [-3]) (.dict [])]).2

/-- The hypotheses of `C101_bound_partial` are met: the result is 3 worse than the optimum, `rho_initial / 2` is 4. -/
example : singleBitQP.WF ∧ (∀ v ∈ singleBitQP.vars, v.vartype = .binary) ∧ singleBitQP.lins = [] ∧ singleBitQP.quads = [] ∧
    (∀ i < singleBitQP.numVars, Dict.get singleBitQP.objective.linear.coeffs i ≠ 0) ∧ OptimalAnswers zeroSolver ∧
    (admmSolve zeroSolver zeroSolver norm1 (fun _ => true) { admmDefaults 10 with rhoInitial := 8 } singleBitQP).toOption.map
        (fun a => (a.result.x, a.result.fval)) = some (some [0], some 2) :=
  ⟨by decide +kernel, by decide +kernel, by decide +kernel, by decide +kernel, by decide +kernel, zeroSolver_optimal, by decide +kernel⟩

end Verif
