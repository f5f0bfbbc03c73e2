import Verif.PropsAdmmSteps

/-!
# When ADMM stops, and ADMM on continuous programs (C94, C95)
-/

namespace Verif

theorem no_binary {q : QP} (hc : ∀ v ∈ q.vars, v.vartype = .continuous) (i : Nat) : q.isBinary i = false := by
  unfold QP.isBinary
  cases hv : q.vars[i]? with
  | none => simp
  | some v => simp [hc v (List.mem_of_getElem? hv)]

theorem dropBinary_none {q : QP} (hc : ∀ v ∈ q.vars, v.vartype = .continuous) (x : Nat → ℚ) : q.dropBinary x = x := by
  funext i
  simp [QP.dropBinary, no_binary hc]

theorem no_products {q : QP} (hc : ∀ v ∈ q.vars, v.vartype = .continuous) : ¬ q.BinaryProducts := by
  rintro ⟨i, j, h1, h2, h3⟩
  simp [no_binary hc] at h2

/-- An equality that step 2 leaves out has no variables at all. -/
theorem isBinEq_empty {q : QP} (hc : ∀ v ∈ q.vars, v.vartype = .continuous) {c : LinCst} (h : c.isBinEq q = true)
    (x : Nat → ℚ) : (Cst.lin c).val x = 0 := by
  simp only [LinCst.isBinEq, no_binary hc, Bool.and_eq_true, decide_eq_true_eq, List.all_eq_true] at h
  have hk : c.linear.coeffs = [] := by
    cases hl : c.linear.coeffs with
    | nil => rfl
    | cons e l => exact absurd (h.2 e.1 (by simp [hl, Assoc.keys])) (by simp)
  simp [Cst.val, LinExpr.val, hk, Dict.sum]

/-- Where the program has a feasible point, the program of step 2 has the same feasible points. -/
theorem step2_feas {q op : QP} (hc : ∀ v ∈ q.vars, v.vartype = .continuous) (h : Step2Shape q op)
    (hf : ∃ x, q.Feas x) (x : Nat → ℚ) : op.Feas x ↔ q.Feas x := by
  have hv : op.vars = q.vars := by
    rw [h.vars]
    conv_rhs => rw [← List.map_id q.vars]
    exact List.map_congr_left fun v hm => by simp [hc v hm]
  have hs : op.Sat x ↔ q.Sat x := by
    unfold QP.Sat QP.allCsts
    rw [h.lins, h.quads]
    simp only [List.mem_append, List.mem_map, List.mem_filter, Bool.not_eq_true']
    constructor
    · rintro hx c (⟨l, hl, rfl⟩ | hq)
      · cases hb : l.isBinEq q with
        | false => exact hx _ (.inl ⟨l, ⟨hl, hb⟩, rfl⟩)
        | true =>
          obtain ⟨w, _, _, hw⟩ := hf
          have := hw (.lin l) (by simp [QP.allCsts, hl])
          rw [isBinEq_empty hc hb] at this ⊢
          exact this
      · exact hx _ (.inr hq)
    · rintro hx c (⟨l, ⟨hl, _⟩, rfl⟩ | hq)
      · exact hx _ (.inl ⟨l, hl, rfl⟩)
      · exact hx _ (.inr hq)
  unfold QP.Feas QP.InBounds QP.Integral
  rw [hv, hs]

theorem relTol_of_rel {s : Sense} {a b : ℚ} (h : s.rel a b) : s.relTol a b := by
  cases s with
  | le => exact h
  | ge => exact h
  | eq =>
    simp only [Sense.rel] at h
    subst h
    simp [Sense.relTol]

theorem pt_ext {x y : List ℚ} {n : Nat} (hx : x.length = n) (hy : y.length = n) (h : ∀ i < n, pt x i = pt y i) : pt x = pt y := by
  funext i
  by_cases hi : i < n
  · exact h i hi
  · simp [pt, hx, hy, hi]

/-- **C94** (optimality): for a program whose variables are all continuous and that has a feasible point, ADMM returns an
optimal point of the program, its value and the status of success, whatever the parameters, the number of iterations and the
answers of the QUBO optimizer are, provided that the answers of the continuous optimizer are optimal.  The optimizer is
only asked for an optimum of programs that have a feasible point. -/
theorem C94_optimal (qubo cont : Solver) (norm : List ℚ → ℚ) (clock : Nat → Bool) (prm : AdmmParams) (p : QP) (hp : p.WF)
    (hc : ∀ v ∈ p.vars, v.vartype = .continuous) (hf : ∃ x, p.Feas x)
    (ho : ∀ t op v, (∃ x, op.Feas x) → cont t op = .ok v → OptimalIn op.Feas op.objective (pt v))
    (a : AdmmResult) (h : admmSolve qubo cont norm clock prm p = .ok a) :
    ∃ y, a.result.x = some y ∧ y.length = p.numVars ∧ OptimalIn p.Feas p.objective (pt y) ∧
      a.result.fval = some (p.objective.val (pt y)) ∧ a.result.status = .success := by
  obtain ⟨conv, q, start, hist, hF⟩ := admmSolve_facts hp h
  obtain ⟨hcv, y, y1, y2, y3, y4⟩ := hF.plain hp (fun v hv => by simp [hc v hv])
  subst hcv
  obtain ⟨q', hq', s1, s2, s3, s4, s5, s6⟩ := turnToMinimization_sign p
  have hqq := hF.turn
  rw [hq', Except.ok.injEq] at hqq
  subst hqq
  have hcq : ∀ v ∈ q'.vars, v.vartype = .continuous := by rw [s3]; exact hc
  have hfeas : ∀ x, q'.Feas x ↔ p.Feas x := fun x => by
    unfold QP.Feas QP.InBounds QP.Integral QP.Sat QP.allCsts; rw [s3, s5, s6]
  obtain ⟨k, g, k1, k2, _⟩ := hF.best
  obtain ⟨s, _, _, _, _, u1, _⟩ := iteration_facts hF k1
  obtain ⟨op, v, v1, v2, v3, v4, v5⟩ := updateX1_inv hF.rep u1
  obtain ⟨f1, f2, f3, f4, _⟩ := step2_facts hF.wf hF.rep v1
  have hsh : Step2Shape q' op := ⟨f1, f2, f3, by rw [f4, s1]⟩
  have hfq : ∃ x, q'.Feas x := hf.imp fun x hx => (hfeas x).mpr hx
  have hfo := step2_feas hcq hsh hfq
  have hopt := ho _ op v (hfq.imp fun x hx => (hfo x).mpr hx) v2
  have hnum : q'.numVars = p.numVars := by simp [QP.numVars, s3]
  have hvl : v.length = p.numVars := by rw [v3, QP.numVars, f1, List.length_map, ← hnum]; rfl
  have hyv : pt y = pt v := by
    refine pt_ext y2 hvl fun i hi => ?_
    rw [y3 i hi]
    obtain ⟨w, hw⟩ : ∃ w, q'.vars[i]? = some w := by
      rw [s3]; exact ⟨_, List.getElem?_eq_getElem hi⟩
    have hwc := hcq w (List.mem_of_getElem? hw)
    rw [(k2.2 i w hw).2 hwc]
    exact (takeIdx_pt v4 hw hwc).symm
  obtain ⟨K, hK⟩ := step2_value hF.wf hF.rep v1 (no_products hcq)
  have hval : ∀ x x' : Nat → ℚ, op.objective.val x - op.objective.val x' = q'.objective.val x - q'.objective.val x' := by
    intro x x'
    have hb := no_binary hcq
    have e1 := hK x x [] (by simp [hb]) (by simp [hb])
    have e2 := hK x' x [] (by simp [hb]) (by simp [hb])
    rw [dropBinary_none hcq] at e1 e2
    linarith
  have hO : OptimalIn p.Feas p.objective (pt y) := by
    rw [hyv]
    refine ⟨(hfeas _).mp ((hfo _).mp hopt.1), fun x hx => ?_⟩
    have h1 := hopt.2 x ((hfo x).mpr ((hfeas x).mpr hx))
    have h2 := hval (pt v) x
    rw [s2, s2] at h2
    rw [hsh.sense] at h1
    cases hsn : p.objective.sense <;> simp [hsn, ObjSense.value] at h1 h2 ⊢ <;> linarith
  refine ⟨y, y1, y2, hO, y4, ?_⟩
  obtain ⟨y', _, z1, _, _, _, _, z6, _⟩ := C29_result p hp.cons.vars.2 _ _ _ _ _ hF.interp
  rw [y1, Option.some.injEq] at z1
  subst z1
  exact z6.mpr ⟨hO.1.1, fun c hc => relTol_of_rel (hO.1.2.2 c hc)⟩

/-! ## C95 -/

/-- The residual that decides whether iteration `j` takes place: 100 for the first one (`admm_optimizer.py:330`), then the
primal residual recorded in the iteration before. -/
def residualBefore (residuals : List ℚ) : Nat → ℚ
  | 0 => 100
  | j + 1 => pt residuals j

theorem admmRecord_residuals {norm : List ℚ → ℚ} {prm : AdmmParams} {r : AdmmRep} {k : Nat} {s t : AdmmState} {d : ℚ}
    (h : admmRecord norm prm r k s = .ok (t, d)) : t.residuals = s.residuals ++ [d] := by
  unfold admmRecord at h
  simp only at h
  repeat' split at h
  all_goals first | cases h | skip
  rfl

theorem admmBlocks_residuals {qubo cont : Solver} {prm : AdmmParams} {r : AdmmRep} {k : Nat} {s t : AdmmState}
    (h : admmBlocks qubo cont prm r k s = .ok t) : t.residuals = s.residuals := by
  unfold admmBlocks at h
  simp only at h
  repeat' split at h
  all_goals first | cases h | skip
  rfl

theorem admmLoop_stops {qubo cont : Solver} {norm : List ℚ → ℚ} {clock : Nat → Bool} {prm : AdmmParams} {r : AdmmRep} {k : Nat}
    {s t : AdmmState} {d : ℚ} (hd : d = residualBefore s.residuals s.residuals.length)
    (h : admmLoop qubo cont norm clock prm r k s.residuals.length d s = .ok t) :
    ∃ new, t.residuals = s.residuals ++ new ∧ new.length ≤ k ∧
      (∀ j < new.length, prm.tol < residualBefore t.residuals (s.residuals.length + j) ∧
        clock (s.residuals.length + j) = true) ∧
      (new.length < k → residualBefore t.residuals t.residuals.length ≤ prm.tol ∨ clock t.residuals.length = false) := by
  induction k generalizing s d with
  | zero =>
    simp only [admmLoop, Except.ok.injEq] at h
    subst h
    exact ⟨[], by simp⟩
  | succ k ih =>
    simp only [admmLoop] at h
    by_cases hg : d > prm.tol ∧ clock s.residuals.length = true
    · rw [if_pos hg] at h
      cases hb : admmBlocks qubo cont prm r s.residuals.length s with
      | error e => simp [hb] at h
      | ok s1 =>
        simp only [hb] at h
        cases hr : admmRecord norm prm r s.residuals.length s1 with
        | error e => simp [hr] at h
        | ok sp =>
          obtain ⟨s2, d2⟩ := sp
          simp only [hr] at h
          have hres : s2.residuals = s.residuals ++ [d2] := by
            rw [admmRecord_residuals hr, admmBlocks_residuals hb]
          have hl : s2.residuals.length = s.residuals.length + 1 := by simp [hres]
          obtain ⟨new, n1, n2, n3, n4⟩ := ih (s := s2) (d := d2) (by rw [hl]; simp [residualBefore, hres, pt]) (by rw [hl]; exact h)
          have ht : t.residuals = s.residuals ++ (d2 :: new) := by rw [n1, hres]; simp
          refine ⟨d2 :: new, ht, by simp; omega, ?_, fun hlt => n4 (by simp at hlt; omega)⟩
          intro j hj
          cases j with
          | zero =>
            refine ⟨?_, hg.2⟩
            have : residualBefore t.residuals (s.residuals.length + 0) = residualBefore s.residuals s.residuals.length := by
              rw [Nat.add_zero]
              cases hsl : s.residuals.length with
              | zero => rfl
              | succ m => simp only [residualBefore, pt, ht]; simp only [List.getD_eq_getElem?_getD, List.getElem?_append_left (show m < s.residuals.length by omega)]
            rw [this, ← hd]
            exact hg.1
          | succ j =>
            have := n3 j (by simp at hj; omega)
            rw [hl] at this
            rw [show s.residuals.length + (j + 1) = s.residuals.length + 1 + j by omega]
            exact this
    · rw [if_neg hg] at h
      simp only [Except.ok.injEq] at h
      subst h
      refine ⟨[], by simp, by simp, by simp, fun _ => ?_⟩
      rw [← hd]
      by_cases h1 : d > prm.tol
      · right
        by_contra h2
        exact hg ⟨h1, by simpa using h2⟩
      · exact .inl (not_lt.mp h1)

theorem admmStart_residuals {cont : Solver} {prm : AdmmParams} {q : QP} {s : AdmmState}
    (h : (if prm.warmStart then admmWarmStart cont q (admmInit prm q) else .ok (admmInit prm q)) = .ok s) : s.residuals = [] := by
  unfold admmWarmStart at h
  repeat' split at h
  all_goals first | cases h | skip
  all_goals rfl

/-- **C95** (the end of the iterations): every iteration that took place was allowed by the number of iterations, by the
time, and by the residual of the iteration before, which was above the tolerance; and when ADMM stops before the last
iteration allowed, the last residual is at most the tolerance or the time is over. -/
theorem C95_stops (qubo cont : Solver) (norm : List ℚ → ℚ) (clock : Nat → Bool) (prm : AdmmParams) (p : QP)
    (a : AdmmResult) (h : admmSolve qubo cont norm clock prm p = .ok a) :
    a.state.residuals.length ≤ prm.maxiter ∧
      (∀ j < a.state.residuals.length, prm.tol < residualBefore a.state.residuals j ∧ clock j = true) ∧
      (a.state.residuals.length < prm.maxiter →
        residualBefore a.state.residuals a.state.residuals.length ≤ prm.tol ∨ clock a.state.residuals.length = false) := by
  obtain ⟨conv, q, s, b, c, v, _, _, _, h4, _, h6, _⟩ := admmSolve_inv h
  have h0 := admmStart_residuals h4
  obtain ⟨new, n1, n2, n3, n4⟩ := admmLoop_stops (s := s) (d := 100) (by rw [h0]; rfl) (by rw [h0]; exact h6)
  rw [h0, List.nil_append] at n1
  subst n1
  simp only [h0, List.length_nil, Nat.zero_add] at n3
  exact ⟨n2, n3, n4⟩

/-- The second iteration has residual 0, so that the third one does not take place although ten are allowed. -/
example : (admmSolve admmQubo admmCont norm1 (fun _ => true) { admmDefaults 10 with threeBlock := false } admmQP).toOption.map
    (fun a => (a.state.residuals, residualBefore a.state.residuals 1)) = some ([1, 0], 1) := by decide +kernel

/-- **C95** (no iteration): when no iteration is allowed, since `maxiter` is 0 or the tolerance is 100 or more or the time is
over at the start, there is no result: the search for the best iterate fails. -/
theorem C95_none (qubo cont : Solver) (norm : List ℚ → ℚ) (clock : Nat → Bool) (prm : AdmmParams) (p : QP) (hp : p.WF)
    (h : prm.maxiter = 0 ∨ 100 ≤ prm.tol ∨ clock 0 = false) (a : AdmmResult) :
    admmSolve qubo cont norm clock prm p ≠ .ok a := by
  intro ha
  obtain ⟨n1, n2, _⟩ := C95_stops qubo cont norm clock prm p a ha
  obtain ⟨conv, q, start, hist, hF⟩ := admmSolve_facts hp ha
  obtain ⟨k, g, k1, _⟩ := hF.best
  have hk : 0 < a.state.residuals.length := by
    rw [hF.trace.lr]
    obtain ⟨hk, _⟩ := List.getElem?_eq_some_iff.mp k1
    omega
  obtain ⟨m1, m2⟩ := n2 0 hk
  simp only [residualBefore] at m1
  rcases h with h | h | h
  · omega
  · linarith
  · simp [h] at m2

example : (match admmSolve admmQubo admmCont norm1 (fun _ => true) (admmDefaults 0) admmQP with
    | .error .valueError => true
    | _ => false) = true := by decide +kernel

/-! ## C94, continued -/

theorem countType_none {q : QP} (hc : ∀ v ∈ q.vars, v.vartype = .continuous) : q.countType .binary = 0 := by
  unfold QP.countType
  rw [List.length_eq_zero_iff, List.filter_eq_nil_iff]
  intro v hv
  simp [hc v hv]

/-- **C94** (one iteration): for a program whose variables are all continuous ADMM does exactly one iteration, provided that
the tolerance is not negative. -/
theorem C94_once (qubo cont : Solver) (norm : List ℚ → ℚ) (clock : Nat → Bool) (prm : AdmmParams) (p : QP) (hp : p.WF)
    (hc : ∀ v ∈ p.vars, v.vartype = .continuous) (hn : norm [] = 0) (ht : 0 ≤ prm.tol)
    (a : AdmmResult) (h : admmSolve qubo cont norm clock prm p = .ok a) :
    a.state.uSaved.length = 1 ∧ a.state.residuals = [0] := by
  obtain ⟨n1, n2, _⟩ := C95_stops qubo cont norm clock prm p a h
  obtain ⟨conv, q, start, hist, hF⟩ := admmSolve_facts hp h
  obtain ⟨hcv, _⟩ := hF.plain hp (fun v hv => by simp [hc v hv])
  subst hcv
  obtain ⟨q', hq', s1, s2, s3, s4, s5, s6⟩ := turnToMinimization_sign p
  have hqq := hF.turn
  rw [hq', Except.ok.injEq] at hqq
  subst hqq
  have hcnt := countType_none (q := q') (by rw [s3]; exact hc)
  obtain ⟨k, g, k1, _⟩ := hF.best
  obtain ⟨hk, _⟩ := List.getElem?_eq_some_iff.mp k1
  have h0 : a.state.residuals[0]? = some 0 := by
    obtain ⟨g0, hg0⟩ : ∃ g0, hist[0]? = some g0 := ⟨_, List.getElem?_eq_getElem (by omega)⟩
    have hi := hF.trace.steps 0 g0 hg0
    have hx := hi.lx
    rw [hcnt, List.length_eq_zero_iff] at hx
    rw [hi.primal, hx]
    simp [vsub, hn]
  have hlen : a.state.residuals.length = 1 := by
    rw [hF.trace.lr] at n2 ⊢
    by_contra hne
    have := (n2 1 (by omega)).1
    simp [residualBefore, pt, List.getD_eq_getElem?_getD, h0] at this
    linarith
  refine ⟨by rw [hF.trace.us, List.length_map, ← hF.trace.lr, hlen], ?_⟩
  obtain ⟨r, hr⟩ := List.length_eq_one_iff.mp hlen
  rw [hr] at h0 ⊢
  simpa using h0

/-- Maximize `u` up to `u + w <= 4`, with `w >= 1`. -/
def contQP : QP :=
  (runCalls (QP.empty "") [.addVar 0 5 .continuous (some "u"), .addVar 1 2 .continuous (some "w"),
    .linear (.dict [(.idx 0, 1), (.idx 1, 1)]) (.sense .le) 4 (some "c0"),
    .objective .maximize 7 (.list [1, 0]) (.dict [])]).2

/-- An optimizer of a single kind of program. -/
def contSolver : Solver := fun _ op =>
  if op.vars = contQP.vars ∧ op.lins = contQP.lins ∧ op.quads = [] ∧ op.objective.sense = .minimize ∧
    op.objective.linear.coeffs = [(0, -1)] ∧ op.objective.quadratic.coeffs = [] then .ok [3, 1] else .error .optimization

theorem contSolver_optimal (t : Nat) (op : QP) (v : List ℚ) (h : contSolver t op = .ok v) :
    OptimalIn op.Feas op.objective (pt v) := by
  unfold contSolver at h
  split at h
  case isFalse => cases h
  case isTrue hc =>
    obtain ⟨h1, h2, h3, h4, h5, h6⟩ := hc
    simp only [Except.ok.injEq] at h
    subst h
    have hv : contQP.vars = [⟨"u", 0, 5, .continuous⟩, ⟨"w", 1, 2, .continuous⟩] := by decide +kernel
    have hl : contQP.lins.map (fun c => (c.sense, c.rhs, c.linear.coeffs)) = [(.le, 4, [(0, 1), (1, 1)])] := by decide +kernel
    obtain ⟨c, hcl, hcc⟩ : ∃ c, contQP.lins = [c] ∧ (c.sense, c.rhs, c.linear.coeffs) = (.le, 4, [(0, 1), (1, 1)]) := by
      cases hL : contQP.lins with
      | nil => simp [hL] at hl
      | cons c l =>
        rw [hL] at hl
        simp only [List.map_cons, List.cons.injEq, List.map_eq_nil_iff] at hl
        exact ⟨c, by rw [hl.2], hl.1⟩
    simp only [Prod.mk.injEq] at hcc
    obtain ⟨c1, c2, c3⟩ := hcc
    have hfeas : ∀ x, op.Feas x ↔ (0 ≤ x 0 ∧ x 0 ≤ 5) ∧ (1 ≤ x 1 ∧ x 1 ≤ 2) ∧ x 0 + x 1 ≤ 4 := by
      intro x
      unfold QP.Feas QP.InBounds QP.Integral QP.Sat QP.allCsts
      rw [h1, h2, h3, hv, hcl]
      have hi : ∀ i v, ([⟨"u", 0, 5, .continuous⟩, ⟨"w", 1, 2, .continuous⟩] : List Variable)[i]? = some v →
          (i = 0 ∧ v = ⟨"u", 0, 5, .continuous⟩) ∨ (i = 1 ∧ v = ⟨"w", 1, 2, .continuous⟩) := by
        intro i v h
        match i, h with
        | 0, h => left; simpa [eq_comm] using h
        | 1, h => right; simpa [eq_comm] using h
        | i + 2, h => simp at h
      constructor
      · rintro ⟨b, _, hs⟩
        refine ⟨b 0 _ rfl, b 1 _ rfl, ?_⟩
        have := hs (.lin c) (by simp)
        simpa [Cst.sense, Cst.val, Cst.rhs, c1, c2, c3, Sense.rel, LinExpr.val, Dict.sum] using this
      · rintro ⟨b0, b1, hs⟩
        refine ⟨?_, ?_, ?_⟩
        · intro i v hv
          rcases hi i v hv with ⟨rfl, rfl⟩ | ⟨rfl, rfl⟩
          · exact b0
          · exact b1
        · intro i v hv hne
          rcases hi i v hv with ⟨rfl, rfl⟩ | ⟨rfl, rfl⟩ <;> simp at hne
        · intro d hd
          simp only [List.map_cons, List.map_nil, List.append_nil, List.mem_singleton] at hd
          subst hd
          simpa [Cst.sense, Cst.val, Cst.rhs, c1, c2, c3, Sense.rel, LinExpr.val, Dict.sum] using hs
    refine ⟨(hfeas _).mpr (by simp [pt]; norm_num), fun y hy => ?_⟩
    obtain ⟨_, b, s⟩ := (hfeas y).mp hy
    have hval : ∀ x, op.objective.val x = op.objective.constant + -x 0 := fun x => by
      simp [Objective.val, LinExpr.val, QuadExpr.val, h5, h6, Dict.sum]
    rw [h4, hval, hval]
    simp [ObjSense.value, pt]
    linarith

example : ∀ t op v, (∃ x, op.Feas x) → contSolver t op = .ok v → OptimalIn op.Feas op.objective (pt v) :=
  fun t op v _ h => contSolver_optimal t op v h

example : contQP.WF ∧ (∀ v ∈ contQP.vars, v.vartype = .continuous) ∧ norm1 [] = 0 ∧
    (admmSolve admmQubo contSolver norm1 (fun _ => true) (admmDefaults 10) contQP).toOption.map
      (fun a => (a.result.x, a.result.fval, a.result.status)) = some (some [3, 1], some 10, .success) := by
  decide +kernel

end Verif
